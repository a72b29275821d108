import Verif.Model.Session
import Verif.Proof.Core
/-!
# The core is only ever appended to

For arbitrary states: nothing is assumed about the core, the cache, the heap or the environment.
-/

namespace Hyperbee

/-- The computation leaves the core (and the environment) alone. -/
structure Keeps (m : M α) : Prop where
  at_ : ∀ s, (m s).2.core = s.core ∧ (m s).2.io = s.io

theorem Keeps.pure (a : α) : Keeps (Pure.pure a : M α) := ⟨fun _ => ⟨rfl, rfl⟩⟩

theorem Keeps.throw (e : Err) : Keeps (Hyperbee.throw e : M α) := ⟨fun _ => ⟨rfl, rfl⟩⟩

theorem Keeps.bind {m : M α} {f : α → M β} (h : Keeps m) (hf : ∀ a, Keeps (f a)) : Keeps (m >>= f) := by
  constructor
  intro s
  rw [bind_run]
  have h1 := h.at_ s
  cases hm : m s with
  | mk r s' =>
    rw [hm] at h1
    cases r with
    | error e => exact h1
    | ok a =>
      have h2 := (hf a).at_ s'
      exact ⟨h2.1.trans h1.1, h2.2.trans h1.2⟩

theorem Keeps.orPanic (site : String) (o : Option α) : Keeps (Hyperbee.orPanic site o) := by
  cases o
  · exact Keeps.throw _
  · exact Keeps.pure _

theorem Keeps.readNode (a : Addr) : Keeps (Hyperbee.readNode a) := by
  constructor
  intro s
  unfold Hyperbee.readNode
  cases s.heap[a]? <;> exact ⟨rfl, rfl⟩

theorem Keeps.writeNode (a : Addr) (n : Node) : Keeps (Hyperbee.writeNode a n) := ⟨fun _ => ⟨rfl, rfl⟩⟩
theorem Keeps.alloc (n : Node) : Keeps (Hyperbee.alloc n) := ⟨fun _ => ⟨rfl, rfl⟩⟩
theorem Keeps.version : Keeps Hyperbee.version := ⟨fun _ => ⟨rfl, rfl⟩⟩
theorem Keeps.descentFuel : Keeps Hyperbee.descentFuel := ⟨fun _ => ⟨rfl, rfl⟩⟩
theorem Keeps.coreGet (q : Nat) : Keeps (Hyperbee.coreGet q) := ⟨fun _ => ⟨rfl, rfl⟩⟩
theorem Keeps.getFromCache (q : Nat) : Keeps (Hyperbee.getFromCache q) := ⟨fun _ => ⟨rfl, rfl⟩⟩
theorem Keeps.modifyCache (f : St → Nat → Option BlockEntry) :
    Keeps (modifySt fun s => { s with cache := f s }) := ⟨fun _ => ⟨rfl, rfl⟩⟩

theorem Keeps.tryResult {m : M α} (h : Keeps m) : Keeps (Hyperbee.tryResult m) := by
  constructor
  intro s
  have h1 := h.at_ s
  unfold Hyperbee.tryResult
  split <;> rename_i heq <;> rw [heq] at h1 <;> exact h1

/-- Discharges `Keeps` goals made of the rules above; `hyps` are tried as they are. -/
macro "keeps" "[" hs:term,* "]" : tactic => do
  let mut t ← `(tactic| fail)
  for h in hs.getElems do
    t ← `(tactic| first | exact $h | $t:tactic)
  `(tactic|
    repeat' (first
      | exact Keeps.pure _
      | exact Keeps.throw _
      | exact Keeps.orPanic _ _
      | exact Keeps.readNode _
      | exact Keeps.writeNode _ _
      | exact Keeps.alloc _
      | exact Keeps.version
      | exact Keeps.descentFuel
      | exact Keeps.coreGet _
      | exact Keeps.getFromCache _
      | exact Keeps.modifyCache _
      | $t:tactic
      | apply Keeps.tryResult
      | apply Keeps.bind
      | intro _
      | split
      | dsimp only))

theorem allocLevels_keeps : ∀ ls, Keeps (allocLevels ls) := by
  intro ls
  induction ls with
  | nil => exact Keeps.pure _
  | cons l ls ih => unfold allocLevels; keeps [ih]

theorem blocksGet_keeps (q : Nat) : Keeps (blocksGet q) := by
  unfold blocksGet getFromCore blockEntryNew makeNodeVec
  keeps [allocLevels_keeps _]

theorem getTreeNode_keeps (e : BlockEntry) (o : Nat) : Keeps (getTreeNode e o) := Keeps.orPanic _ _

theorem getChild_keeps (a i : Nat) : Keeps (getChild a i) := by
  unfold getChild; keeps [blocksGet_keeps _, getTreeNode_keeps _ _]

theorem isLeaf_keeps (a : Nat) : Keeps (isLeaf a) := by unfold isLeaf; keeps []

theorem getKeyValue_keeps (a i : Nat) : Keeps (getKeyValue a i) := by
  unfold getKeyValue; keeps [blocksGet_keeps _]

theorem nodeInsert_keeps (a k : Nat) (cs : List Child) (i j : Nat) : Keeps (nodeInsert a k cs i j) := by
  unfold nodeInsert; keeps []

theorem searchLoop_keeps (a : Nat) (k : LimitValue) : ∀ fuel lo hi, Keeps (searchLoop a k fuel lo hi) := by
  intro fuel
  induction fuel with
  | zero => intro _ _; exact Keeps.throw _
  | succ n ih => intro lo hi; unfold searchLoop; keeps [ih _ _, getKeyValue_keeps _ _]

theorem getIndexOfKey_keeps (a : Nat) (k : LimitValue) : Keeps (getIndexOfKey a k) := by
  unfold getIndexOfKey; keeps [searchLoop_keeps _ _ _ _ _]

theorem nearestLoop_keeps (k : LimitValue) : ∀ fuel a p, Keeps (nearestLoop k fuel a p) := by
  intro fuel
  induction fuel with
  | zero => intro _ _; exact Keeps.throw _
  | succ n ih => intro a p; unfold nearestLoop; keeps [ih _ _, getIndexOfKey_keeps _ _, isLeaf_keeps _, getChild_keeps _ _]

theorem nearestNode_keeps (a : Nat) (k : LimitValue) : Keeps (nearestNode a k) := by
  unfold nearestNode; keeps [nearestLoop_keeps _ _ _ _]

theorem takeChildrenWithSeq_keeps (a q : Nat) : Keeps (takeChildrenWithSeq a q) := by
  unfold takeChildrenWithSeq; keeps []

theorem reorderLoop_keeps (q : Nat) (ns : List Nat) : ∀ fuel st out, Keeps (reorderLoop q ns fuel st out) := by
  intro fuel
  induction fuel with
  | zero => intro st out; cases st <;> unfold reorderLoop <;> keeps []
  | succ n ih =>
    intro st out
    cases st with
    | nil => unfold reorderLoop; keeps []
    | cons x st => unfold reorderLoop; keeps [ih _ _, takeChildrenWithSeq_keeps _ _]

theorem reorderNodes_keeps (q : Nat) (ns : List Nat) : Keeps (reorderNodes q ns) := by
  unfold reorderNodes; keeps [takeChildrenWithSeq_keeps _ _, reorderLoop_keeps _ _ _ _ _]

theorem readNodes_keeps : ∀ as, Keeps (readNodes as) := by
  intro as
  induction as with
  | nil => exact Keeps.pure _
  | cons a as ih => unfold readNodes; keeps [ih]

theorem getRoot_keeps : Keeps (getRoot false) := by
  unfold getRoot
  keeps [blocksGet_keeps _, getTreeNode_keeps _ _]
  rename_i h
  exact absurd h.2 (by simp)

theorem get_keeps (k : Bytes) : Keeps (get k) := by
  unfold get; keeps [getRoot_keeps, nearestNode_keeps _ _, getKeyValue_keeps _ _]

theorem setChild_keeps (a i : Nat) (c : Child) : Keeps (setChild a i c) := by unfold setChild; keeps []

theorem propagate_keeps : ∀ p ch c, Keeps (propagate ch p c) := by
  intro p
  induction p with
  | nil => intro _ _; exact Keeps.pure _
  | cons x p ih => intro ch c; unfold propagate; keeps [ih _ _, setChild_keeps _ _ _]

theorem split_keeps (a : Nat) : Keeps (split a) := by unfold split; keeps []

theorem putLoop_keeps (m : Bool) : ∀ p ch k cs, Keeps (putLoop m p ch k cs) := by
  intro p
  induction p with
  | nil => intro _ _ _; unfold putLoop; keeps []
  | cons x p ih =>
    intro ch k cs; unfold putLoop
    keeps [ih _ _ _, nodeInsert_keeps _ _ _ _ _, propagate_keeps _ _ _, split_keeps _]

theorem replaceRemoved_keeps (p : NodePath) (n k : Nat) : Keeps (replaceRemovedInternalKey p n k) := by
  unfold replaceRemovedInternalKey
  keeps [getChild_keeps _ _, nearestNode_keeps _ _]

theorem getDonorIndex_keeps (sd : Side) (f i : Nat) : Keeps (sd.getDonorIndex f i) := by
  cases sd <;> unfold Side.getDonorIndex <;> keeps []

theorem getDonorKey_keeps (sd : Side) (f : Nat) : Keeps (sd.getDonorKey f) := by
  cases sd <;> unfold Side.getDonorKey <;> keeps []

theorem getDonorChild_keeps (sd : Side) (f : Nat) : Keeps (sd.getDonorChild f) := by
  cases sd <;> unfold Side.getDonorChild <;> keeps [isLeaf_keeps _]

theorem swapDonor_keeps (sd : Side) (f i k : Nat) : Keeps (sd.swapDonorKeyInFather f i k) := by
  unfold Side.swapDonorKeyInFather; keeps []

theorem insertDonations_keeps (sd : Side) (f k : Nat) (c : Option Child) : Keeps (sd.insertDonations f k c) := by
  cases sd <;> unfold Side.insertDonations <;> keeps []

theorem canRotate_keeps (sd : Side) (f i o : Nat) : Keeps (sd.canRotate f i o) := by
  unfold Side.canRotate; keeps [getDonorIndex_keeps _ _ _, getChild_keeps _ _]

theorem rotate_keeps (sd : Side) (f i d di dd : Nat) (ch : Changes) : Keeps (sd.rotate f i d di dd ch) := by
  unfold Side.rotate
  keeps [getDonorKey_keeps _ _, getDonorChild_keeps _ _, swapDonor_keeps _ _ _ _, insertDonations_keeps _ _ _ _,
    setChild_keeps _ _ _]

theorem maybeRotate_keeps (sd : Side) (f i d o : Nat) (ch : Changes) : Keeps (sd.maybeRotate f i d o ch) := by
  unfold Side.maybeRotate; keeps [canRotate_keeps _ _ _ _, rotate_keeps _ _ _ _ _ _ _]

theorem moveChildren_keeps (l r n : Nat) : Keeps (Side.moveChildren l r n) := by
  unfold Side.moveChildren; keeps []

theorem maybeMerge_keeps (sd : Side) (f i d : Nat) (ch : Changes) : Keeps (sd.maybeMerge f i d ch) := by
  cases sd <;> unfold Side.maybeMerge <;> keeps [moveChildren_keeps _ _ _, getDonorIndex_keeps _ _ _, getChild_keeps _ _]

theorem repairOne_keeps (f i d o : Nat) (ch : Changes) : Keeps (repairOne f i d o ch) := by
  unfold repairOne; keeps [maybeRotate_keeps _ _ _ _ _ _, maybeMerge_keeps _ _ _ _ _]

theorem repairLoop_keeps (o : Nat) : ∀ p f i d ch, Keeps (repairLoop o p f i d ch) := by
  intro p
  induction p with
  | nil => intro f i d ch; unfold repairLoop; keeps [repairOne_keeps _ _ _ _ _]
  | cons x p ih =>
    intro f i d ch
    unfold repairLoop; keeps [repairOne_keeps _ _ _ _ _, ih _ _ _ _]
    rename_i heq _
    cases heq
    exact ih _ _ _ _

theorem repair_keeps (p : NodePath) (o : Nat) (ch : Changes) : Keeps (repair p o ch) := by
  unfold repair; keeps [getChild_keeps _ _, repairLoop_keeps _ _ _ _ _ _]

theorem delChanges_keeps (k : Bytes) (p : NodePath) : Keeps (delChanges k p) := by
  unfold delChanges
  keeps [isLeaf_keeps _, replaceRemoved_keeps _ _ _, repair_keeps _ _ _, propagate_keeps _ _ _]

theorem delPrepare_keeps (k : Bytes) (cas : KeyValueData → Bool) : Keeps (delPrepare k cas) := by
  unfold delPrepare
  keeps [getRoot_keeps, nearestNode_keeps _ _, getKeyValue_keeps _ _, delChanges_keeps _ _]

theorem makeIter_keeps (conf : TraverseConfig) (a nk nc : Nat) : Keeps (makeChildKeyIndexIter conf a nk nc) := by
  unfold makeChildKeyIndexIter; keeps [getIndexOfKey_keeps _ _]

theorem pollSetup_keeps (r : Bool) (f : Frame) : Keeps (pollSetup r f) := by
  unfold pollSetup; keeps [makeIter_keeps _ _ _ _]

theorem poll_keeps (r : Bool) : ∀ fs, Keeps (poll r fs) := by
  intro fs
  induction fs with
  | nil => exact Keeps.throw _
  | cons f fs ih =>
    cases fs with
    | nil => unfold poll; keeps [getKeyValue_keeps _ _, getChild_keeps _ _, pollSetup_keeps _ _]
    | cons g gs => unfold poll; keeps [getKeyValue_keeps _ _, getChild_keeps _ _, ih]

theorem drive_keeps {post : Except Err KeyValueData → M β} (hp : ∀ x, Keeps (post x)) :
    ∀ rs fs, Keeps (drive post rs fs) := by
  intro rs
  induction rs with
  | nil => intro fs; exact Keeps.pure _
  | cons r rs ih => intro fs; unfold drive; keeps [poll_keeps _ _, hp _, ih _]

theorem traverse_keeps (conf : TraverseConfig) : Keeps (traverse conf) := by
  unfold traverse; keeps [getRoot_keeps]

theorem traverseSession_keeps (b : TraverseConfigBuilder) (sched : List Bool) : Keeps (traverseSession b sched) := by
  unfold traverseSession collect
  keeps [traverse_keeps _, drive_keeps (fun x => Keeps.pure x) _ _]

/-! ## What a successful result looks like -/

/-- Every successful result satisfies `Q`. -/
structure Gives (m : M α) (Q : α → Prop) : Prop where
  at_ : ∀ s a s', m s = (.ok a, s') → Q a

theorem Gives.pure {Q : α → Prop} {a : α} (h : Q a) : Gives (Pure.pure a : M α) Q :=
  ⟨fun _ _ _ e => by cases e; exact h⟩

theorem Gives.throw {Q : α → Prop} {e : Err} : Gives (Hyperbee.throw e : M α) Q :=
  ⟨fun _ _ _ e => by cases e⟩

theorem Gives.bind {m : M α} {f : α → M β} {Q : β → Prop} (hf : ∀ a, Gives (f a) Q) : Gives (m >>= f) Q := by
  constructor
  intro s b s' h
  rw [bind_run] at h
  cases hm : m s with
  | mk r s1 =>
    rw [hm] at h
    cases r with
    | error e => cases h
    | ok a => exact (hf a).at_ _ _ _ h

/-- A refused put has no new block, an accepted one has. -/
def PutPrepared : Prepared (Option Nat × Option Nat) → Prop
  | .done a => a.2 = none
  | .commit _ a => a.2.isSome

/-- Likewise for deletions. -/
def DelPrepared : Prepared (Option (Bool × Nat)) → Prop
  | .done a => ∀ q, a ≠ some (true, q)
  | .commit _ a => ∃ q, a = some (true, q)

theorem putPrepare_gives (k : Bytes) (v : Option Bytes) (cas : Option KeyValueData → KeyValueData → Bool) :
    Gives (putPrepare k v cas) PutPrepared := by
  unfold putPrepare
  repeat' (first | exact Gives.pure rfl | exact Gives.throw | apply Gives.bind | intro _ | split | dsimp only)

theorem delPrepare_gives (k : Bytes) (cas : KeyValueData → Bool) : Gives (delPrepare k cas) DelPrepared := by
  unfold delPrepare
  repeat' (first
    | exact Gives.pure (fun _ h => by simp at h) | exact Gives.pure ⟨_, rfl⟩ | exact Gives.throw
    | apply Gives.bind | intro _ | split | dsimp only)

/-! ## Appending -/

theorem addChanges_core (ch : Changes) (s : St) :
    (∃ n, (addChanges ch s).1 = .ok n ∧ ∃ ns, (addChanges ch s).2.core = s.core ++ [encodeBlock ch.key ch.value ns]) ∨
    (∃ e, (addChanges ch s).1 = .error e ∧ (addChanges ch s).2.core = s.core) := by
  unfold addChanges
  rw [bind_run]
  have h1 := (reorderNodes_keeps ch.seq ch.nodes).at_ s
  cases hm : reorderNodes ch.seq ch.nodes s with
  | mk r s1 =>
    rw [hm] at h1
    cases r with
    | error e => exact .inr ⟨e, rfl, h1.1⟩
    | ok as =>
      simp only [bind_run]
      have h2 := (readNodes_keeps as).at_ s1
      cases hn : readNodes as s1 with
      | mk r s2 =>
        rw [hn] at h2
        have hc : s2.core = s.core := h2.1.trans h1.1
        cases r with
        | error e => exact .inr ⟨e, rfl, hc⟩
        | ok ns =>
          simp only [coreAppend]
          split
          · exact .inl ⟨_, rfl, ns, by simp [hc]⟩
          · exact .inr ⟨_, rfl, hc⟩

theorem createHeader_core (m : Option Metadata) (s : St) :
    (s.core = [] ∧ (createHeader m s).1 = .ok 1 ∧ (createHeader m s).2.core = [encodeHeader ⟨PROTOCOL, m⟩]) ∨
    (∃ e, (createHeader m s).1 = .error e ∧ (createHeader m s).2.core = s.core ∧
      (e = .headerAlreadyExists ↔ s.core ≠ [])) := by
  unfold createHeader
  rw [bind_ok (version_run s)]
  by_cases h : s.core = []
  · rw [if_neg (by simp [h])]
    unfold coreAppend
    split
    · exact .inl ⟨h, by simp [h], by simp [h]⟩
    · exact .inr ⟨_, rfl, rfl, by simp [h]⟩
  · rw [if_pos (by simp [h])]
    exact .inr ⟨_, rfl, rfl, by simp [h]⟩

/-- `getRoot true` writes the header block if the core is empty. -/
theorem getRoot_core (s : St) :
    ((getRoot true s).2.core = s.core ∧ (s.core = [] → ∃ e, (getRoot true s).1 = .error e)) ∨
    (s.core = [] ∧ (getRoot true s).2.core = [encodeHeader ⟨PROTOCOL, none⟩]) := by
  unfold getRoot
  rw [bind_ok (version_run s)]
  by_cases h : s.core = []
  · rw [if_pos (by simp [h]), if_pos (by simp [h]), bind_run]
    unfold ensureHeader
    rcases createHeader_core none s with ⟨_, h2, h3⟩ | ⟨e, h2, h3, h4⟩
    · right
      refine ⟨h, ?_⟩
      cases hm : createHeader none s with
      | mk r s' =>
        rw [hm] at h2 h3
        simp only at h2
        subst h2
        exact h3
    · left
      cases hm : createHeader none s with
      | mk r s' =>
        rw [hm] at h2 h3
        simp only at h2
        subst h2
        have hne : e ≠ .headerAlreadyExists := fun he => h4.mp he h
        cases e <;> first | exact absurd rfl hne | exact ⟨h3, fun _ => ⟨_, rfl⟩⟩
  · left
    refine ⟨?_, fun h' => absurd h' h⟩
    split
    · rw [if_neg (by simp [h])]; rfl
    · have : Keeps (do
          let block ← blocksGet (s.core.length - 1)
          let root ← getTreeNode block 0
          pure (some root)) := by keeps [blocksGet_keeps _, getTreeNode_keeps _ _]
      exact (this.at_ s).1

theorem putAfterRoot_keeps (k : Bytes) (v : Option Bytes) (cas : Option KeyValueData → KeyValueData → Bool) :
    ∃ f, (∀ r, Keeps (f r)) ∧ putPrepare k v cas = getRoot true >>= f := by
  refine ⟨_, ?_, rfl⟩
  intro r
  refine Keeps.bind Keeps.version fun q => ?_
  keeps [nearestNode_keeps _ _, getKeyValue_keeps _ _, putLoop_keeps _ _ _ _ _]

/-- The header block, written only to an empty core. -/
def HeaderPart (c hdr : List Bytes) : Prop := hdr = [] ∨ (c = [] ∧ hdr = [encodeHeader ⟨PROTOCOL, none⟩])

theorem putPrepare_core (k : Bytes) (v : Option Bytes) (cas : Option KeyValueData → KeyValueData → Bool) (s : St) :
    ∃ hdr, (putPrepare k v cas s).2.core = s.core ++ hdr ∧ HeaderPart s.core hdr ∧
      (s.core = [] → hdr = [] → ∃ e, (putPrepare k v cas s).1 = .error e) := by
  obtain ⟨f, hf, he⟩ := putAfterRoot_keeps k v cas
  rw [he, bind_run]
  have h1 := getRoot_core s
  cases hm : getRoot true s with
  | mk r s1 =>
    rw [hm] at h1
    cases r with
    | error e =>
      rcases h1 with ⟨h1, _⟩ | ⟨h1, h2⟩
      · exact ⟨[], by simp only [List.append_nil]; exact h1, .inl rfl, fun _ _ => ⟨e, rfl⟩⟩
      · exact ⟨_, by simp only [h1, List.nil_append]; exact h2, .inr ⟨h1, rfl⟩, fun _ h => by cases h⟩
    | ok a =>
      have h2 := ((hf a).at_ s1).1
      rcases h1 with ⟨h1, h3⟩ | ⟨h1, h3⟩
      · refine ⟨[], by simp only [List.append_nil]; exact h2.trans h1, .inl rfl, fun h _ => ?_⟩
        obtain ⟨e, he⟩ := h3 h
        cases he
      · exact ⟨_, by simp only [h1, List.nil_append]; exact h2.trans h3, .inr ⟨h1, rfl⟩, fun _ h => by cases h⟩

theorem commit_core {p : Prepared α} (s : St) :
    (∃ a, p = .done a ∧ commitPrepared p s = (.ok a, s)) ∨
    (∃ ch a, p = .commit ch a ∧ (commitPrepared p s).1 = .ok a ∧
      ∃ ns, (commitPrepared p s).2.core = s.core ++ [encodeBlock ch.key ch.value ns]) ∨
    (∃ e, (commitPrepared p s).1 = .error e ∧ (commitPrepared p s).2.core = s.core) := by
  cases p with
  | done a => exact .inl ⟨a, rfl, rfl⟩
  | commit ch a =>
    right
    simp only [commitPrepared, bind_run]
    rcases addChanges_core ch s with ⟨n, h1, ns, h2⟩ | ⟨e, h1, h2⟩
    · left
      refine ⟨ch, a, rfl, ?_⟩
      cases hm : addChanges ch s with
      | mk r s' =>
        rw [hm] at h1 h2
        simp only at h1
        subst h1
        exact ⟨rfl, ns, h2⟩
    · right
      refine ⟨e, ?_⟩
      cases hm : addChanges ch s with
      | mk r s' =>
        rw [hm] at h1 h2
        simp only at h1
        subst h1
        exact ⟨rfl, h2⟩

theorem putCAS_core (k : Bytes) (v : Option Bytes) (cas : Option KeyValueData → KeyValueData → Bool) (s : St) :
    ∃ hdr blk, (putCompareAndSwap k v cas s).2.core = s.core ++ hdr ++ blk ∧ HeaderPart s.core hdr ∧
      ((∃ a q, (putCompareAndSwap k v cas s).1 = .ok (a, some q) ∧ blk.length = 1 ∧ (s.core = [] → hdr ≠ [])) ∨
       (∃ a, (putCompareAndSwap k v cas s).1 = .ok (a, none) ∧ blk = []) ∨
       (∃ e, (putCompareAndSwap k v cas s).1 = .error e ∧ blk = [])) := by
  unfold putCompareAndSwap
  obtain ⟨hdr, h1, h2, h3⟩ := putPrepare_core k v cas s
  rw [bind_run]
  have hg := (putPrepare_gives k v cas).at_ s
  cases hm : putPrepare k v cas s with
  | mk r s1 =>
    rw [hm] at h1 h3 hg
    cases r with
    | error e => exact ⟨hdr, [], by simpa using h1, h2, .inr (.inr ⟨e, rfl, rfl⟩)⟩
    | ok p =>
      have hp := hg p s1 rfl
      rcases commit_core (p := p) s1 with ⟨a, rfl, h4⟩ | ⟨ch, a, rfl, h4, ns, h5⟩ | ⟨e, h4, h5⟩
      · refine ⟨hdr, [], ?_, h2, .inr (.inl ⟨a.1, ?_, rfl⟩)⟩
        · simp only [h4]; simpa using h1
        · simp only [h4]
          obtain ⟨a, b⟩ := a
          simp only [PutPrepared] at hp
          subst hp
          rfl
      · obtain ⟨a, b⟩ := a
        simp only [PutPrepared] at hp
        obtain ⟨q, rfl⟩ := Option.isSome_iff_exists.mp hp
        refine ⟨hdr, [encodeBlock ch.key ch.value ns], ?_, h2, .inl ⟨a, q, h4, rfl, fun he hh => ?_⟩⟩
        · exact h5.trans (by rw [← h1])
        · obtain ⟨e, he⟩ := h3 he hh
          cases he
      · exact ⟨hdr, [], by simp only [h5]; simpa using h1, h2, .inr (.inr ⟨e, h4, rfl⟩)⟩

theorem put_core (k : Bytes) (v : Option Bytes) (s : St) :
    ∃ hdr blk, (put k v s).2.core = s.core ++ hdr ++ blk ∧ HeaderPart s.core hdr ∧
      ((∃ a, (put k v s).1 = .ok a ∧ blk.length = 1 ∧ (s.core = [] → hdr ≠ [])) ∨
       (∃ e, (put k v s).1 = .error e ∧ blk = [])) := by
  obtain ⟨hdr, blk, h1, h2, h3⟩ := putCAS_core k v (fun _ _ => true) s
  unfold put
  rw [bind_run]
  cases hm : putCompareAndSwap k v (fun _ _ => true) s with
  | mk r s1 =>
    rw [hm] at h1 h3
    refine ⟨hdr, blk, ?_, h2, ?_⟩
    · cases r with
      | error e => exact h1
      | ok a =>
        obtain ⟨a, b⟩ := a
        cases b <;> exact h1
    · rcases h3 with ⟨a, q, h4, h5, h6⟩ | ⟨a, h4, h5⟩ | ⟨e, h4, h5⟩
      · cases h4; exact .inl ⟨(a, q), rfl, h5, h6⟩
      · cases h4; exact .inr ⟨_, rfl, h5⟩
      · cases h4; exact .inr ⟨_, rfl, h5⟩

theorem delCAS_core (k : Bytes) (cas : KeyValueData → Bool) (s : St) :
    ∃ blk, (delCompareAndSwap k cas s).2.core = s.core ++ blk ∧
      ((∃ q, (delCompareAndSwap k cas s).1 = .ok (some (true, q)) ∧ blk.length = 1) ∨
       (∃ a, (delCompareAndSwap k cas s).1 = .ok a ∧ (∀ q, a ≠ some (true, q)) ∧ blk = []) ∨
       (∃ e, (delCompareAndSwap k cas s).1 = .error e ∧ blk = [])) := by
  unfold delCompareAndSwap
  have h1 := ((delPrepare_keeps k cas).at_ s).1
  rw [bind_run]
  have hg := (delPrepare_gives k cas).at_ s
  cases hm : delPrepare k cas s with
  | mk r s1 =>
    rw [hm] at h1 hg
    cases r with
    | error e => exact ⟨[], by simpa using h1, .inr (.inr ⟨e, rfl, rfl⟩)⟩
    | ok p =>
      have hp := hg p s1 rfl
      rcases commit_core (p := p) s1 with ⟨a, rfl, h4⟩ | ⟨ch, a, rfl, h4, ns, h5⟩ | ⟨e, h4, h5⟩
      · refine ⟨[], ?_, .inr (.inl ⟨a, ?_, hp, rfl⟩)⟩
        · simp only [h4]; simpa using h1
        · simp only [h4]
      · obtain ⟨q, rfl⟩ := hp
        exact ⟨[encodeBlock ch.key ch.value ns], h5.trans (by rw [← h1]), .inl ⟨q, h4, rfl⟩⟩
      · exact ⟨[], by simp only [h5]; simpa using h1, .inr (.inr ⟨e, h4, rfl⟩)⟩

theorem del_core (k : Bytes) (s : St) :
    ∃ blk, (del k s).2.core = s.core ++ blk ∧
      ((∃ q, (del k s).1 = .ok (some q) ∧ blk.length = 1) ∨
       ((del k s).1 = .ok none ∧ blk = []) ∨
       (∃ e, (del k s).1 = .error e ∧ blk = [])) := by
  obtain ⟨blk, h1, h3⟩ := delCAS_core k (fun _ => true) s
  unfold del
  rw [bind_run]
  cases hm : delCompareAndSwap k (fun _ => true) s with
  | mk r s1 =>
    rw [hm] at h1 h3
    refine ⟨blk, ?_, ?_⟩
    · cases r with
      | error e => exact h1
      | ok a =>
        cases a with
        | none => exact h1
        | some x => obtain ⟨b, q⟩ := x; cases b <;> exact h1
    · rcases h3 with ⟨q, h4, h5⟩ | ⟨a, h4, h6, h5⟩ | ⟨e, h4, h5⟩
      · cases h4; exact .inl ⟨q, rfl, h5⟩
      · cases h4
        cases a with
        | none => exact .inr (.inl ⟨rfl, h5⟩)
        | some x =>
          obtain ⟨b, q⟩ := x
          cases b with
          | false => exact .inr (.inr ⟨_, rfl, h5⟩)
          | true => exact absurd rfl (h6 q)
      · cases h4; exact .inr (.inr ⟨_, rfl, h5⟩)

theorem replyOf_reply (m : M α) (f : α → Reply) (s : St) :
    (replyOf m f s).1 = (match (m s).1 with | .ok a => f a | .error e => .error e) ∧
    (replyOf m f s).2 = (m s).2 := by
  unfold replyOf
  cases m s with
  | mk r s' => cases r <;> exact ⟨rfl, rfl⟩

/-- The blocks a call appends: possibly the header, and one block per effective write. -/
theorem exec_appends (c : Cmd) (s : St) :
    ∃ hdr blk, (exec c s).2.core = s.core ++ hdr ++ blk ∧
      blk.length = (effect c (exec c s).1).toList.length ∧
      (hdr = [] ∨ (s.core = [] ∧ hdr.length = 1 ∧
        ((∃ k v, c = .put k v) ∨ (∃ k v f, c = .putCas k v f) ∨ ∃ m, c = .createHeader m))) ∧
      (∀ k v, effect c (exec c s).1 = some (.set k v) → s.core = [] → hdr ≠ []) := by
  have quiet : ∀ {α : Type} (m : M α) (f : α → Reply), Keeps m → exec c s = replyOf m f s →
      (∀ r, effect c r = none) →
      ∃ hdr blk, (exec c s).2.core = s.core ++ hdr ++ blk ∧
      blk.length = (effect c (exec c s).1).toList.length ∧
      (hdr = [] ∨ (s.core = [] ∧ hdr.length = 1 ∧
        ((∃ k v, c = .put k v) ∨ (∃ k v f, c = .putCas k v f) ∨ ∃ m, c = .createHeader m))) ∧
      (∀ k v, effect c (exec c s).1 = some (.set k v) → s.core = [] → hdr ≠ []) := by
    intro α m f hk he hn
    refine ⟨[], [], ?_, by simp [hn], .inl rfl, by simp [hn]⟩
    rw [he, (replyOf_reply m f s).2, (hk.at_ s).1]
    simp
  cases c with
  | version => exact quiet version _ Keeps.version rfl (fun r => by cases r <;> rfl)
  | get k => exact quiet (get k) _ (get_keeps k) rfl (fun r => by cases r <;> rfl)
  | traverse b sched =>
    exact quiet (traverseSession b sched) _ (traverseSession_keeps b sched) rfl (fun r => by cases r <;> rfl)
  | reopen => exact ⟨[], [], by simp [exec, St.open], rfl, .inl rfl, by simp [effect]⟩
  | createHeader m =>
    have hn : ∀ r, effect (.createHeader m) r = none := fun r => by cases r <;> rfl
    refine ⟨if (createHeader m s).1 = .ok 1 then [encodeHeader ⟨PROTOCOL, m⟩] else [], [], ?_, by simp [hn], ?_,
      by simp [hn]⟩
    · rw [show exec (.createHeader m) s = replyOf (createHeader m) .created s from rfl, (replyOf_reply _ _ s).2]
      rcases createHeader_core m s with ⟨h1, h2, h3⟩ | ⟨e, h2, h3, _⟩
      · rw [if_pos h2, h3, h1]; simp
      · rw [if_neg (by rw [h2]; simp), h3]; simp
    · rcases createHeader_core m s with ⟨h1, h2, h3⟩ | ⟨e, h2, h3, _⟩
      · rw [if_pos h2]; exact .inr ⟨h1, rfl, .inr (.inr ⟨m, rfl⟩)⟩
      · rw [if_neg (by rw [h2]; simp)]; exact .inl rfl
  | put k v =>
    obtain ⟨hdr, blk, h1, h2, h3⟩ := put_core k v s
    obtain ⟨r1, r2⟩ := replyOf_reply (put k v) (fun r => .put r.1 r.2) s
    rw [show exec (.put k v) s = replyOf (put k v) (fun r => .put r.1 r.2) s from rfl, r1, r2]
    refine ⟨hdr, blk, h1, ?_, ?_, ?_⟩
    · rcases h3 with ⟨a, h3, h4, _⟩ | ⟨e, h3, h4⟩
      · rw [h3, h4]; rfl
      · rw [h3, h4]; rfl
    · rcases h2 with h2 | ⟨h2, h4⟩
      · exact .inl h2
      · exact .inr ⟨h2, by rw [h4]; rfl, .inl ⟨k, v, rfl⟩⟩
    · intro k' v' he
      rcases h3 with ⟨a, h3, _, h4⟩ | ⟨e, h3, h4⟩
      · exact h4
      · rw [h3] at he; cases he
  | putCas k v cas =>
    obtain ⟨hdr, blk, h1, h2, h3⟩ := putCAS_core k v cas s
    obtain ⟨r1, r2⟩ := replyOf_reply (putCompareAndSwap k v cas) (fun r => .putCas r.1 r.2) s
    rw [show exec (.putCas k v cas) s = replyOf (putCompareAndSwap k v cas) (fun r => .putCas r.1 r.2) s from rfl, r1, r2]
    refine ⟨hdr, blk, h1, ?_, ?_, ?_⟩
    · rcases h3 with ⟨a, q, h3, h4, _⟩ | ⟨a, h3, h4⟩ | ⟨e, h3, h4⟩
      · rw [h3, h4]; rfl
      · rw [h3, h4]; rfl
      · rw [h3, h4]; rfl
    · rcases h2 with h2 | ⟨h2, h4⟩
      · exact .inl h2
      · exact .inr ⟨h2, by rw [h4]; rfl, .inr (.inl ⟨k, v, cas, rfl⟩)⟩
    · intro k' v' he
      rcases h3 with ⟨a, q, h3, _, h4⟩ | ⟨a, h3, h4⟩ | ⟨e, h3, h4⟩
      · exact h4
      · rw [h3] at he; cases he
      · rw [h3] at he; cases he
  | del k =>
    obtain ⟨blk, h1, h3⟩ := del_core k s
    obtain ⟨r1, r2⟩ := replyOf_reply (del k) .del s
    rw [show exec (.del k) s = replyOf (del k) .del s from rfl, r1, r2]
    refine ⟨[], blk, by simpa using h1, ?_, .inl rfl, ?_⟩
    · rcases h3 with ⟨q, h3, h4⟩ | ⟨h3, h4⟩ | ⟨e, h3, h4⟩
      · rw [h3, h4]; rfl
      · rw [h3, h4]; rfl
      · rw [h3, h4]; rfl
    · intro k' v' he
      rcases h3 with ⟨q, h3, h4⟩ | ⟨h3, h4⟩ | ⟨e, h3, h4⟩ <;> · rw [h3] at he; cases he
  | delCas k cas =>
    obtain ⟨blk, h1, h3⟩ := delCAS_core k cas s
    obtain ⟨r1, r2⟩ := replyOf_reply (delCompareAndSwap k cas) .delCas s
    rw [show exec (.delCas k cas) s = replyOf (delCompareAndSwap k cas) .delCas s from rfl, r1, r2]
    have key : ∀ a : Option (Bool × Nat), (∀ q, a ≠ some (true, q)) → effect (.delCas k cas) (.delCas a) = none := by
      intro a ha
      cases a with
      | none => rfl
      | some x =>
        obtain ⟨b, q⟩ := x
        cases b with
        | false => rfl
        | true => exact absurd rfl (ha q)
    refine ⟨[], blk, by simpa using h1, ?_, .inl rfl, ?_⟩
    · rcases h3 with ⟨q, h3, h4⟩ | ⟨a, h3, h6, h4⟩ | ⟨e, h3, h4⟩
      · rw [h3, h4]; rfl
      · rw [h3, h4]; simp only [key a h6]; rfl
      · rw [h3, h4]; rfl
    · intro k' v' he
      rcases h3 with ⟨q, h3, h4⟩ | ⟨a, h3, h6, h4⟩ | ⟨e, h3, h4⟩
      · rw [h3] at he; cases he
      · rw [h3] at he; simp only [key a h6] at he; cases he
      · rw [h3] at he; cases he

/-- The core is a prefix of the core after any sequence of calls. -/
theorem run_appends : ∀ (cs : List Cmd) (s : St), s.core <+: (runSt cs s).core := by
  intro cs
  induction cs with
  | nil => intro s; exact List.prefix_refl _
  | cons c cs ih =>
    intro s
    obtain ⟨hdr, blk, h, _⟩ := exec_appends c s
    have hp : s.core <+: (exec c s).2.core := ⟨hdr ++ blk, by rw [h, List.append_assoc]⟩
    exact hp.trans (ih _)

/-- If the length did not change then nothing did. -/
theorem exec_core_eq {c : Cmd} {s : St} (h : (exec c s).2.core.length = s.core.length) : (exec c s).2.core = s.core := by
  obtain ⟨hdr, blk, h1, _⟩ := exec_appends c s
  rw [h1] at h ⊢
  simp only [List.length_append] at h
  have h2 : hdr = [] := List.length_eq_zero_iff.mp (by omega)
  have h3 : blk = [] := List.length_eq_zero_iff.mp (by omega)
  simp [h2, h3]

end Hyperbee
