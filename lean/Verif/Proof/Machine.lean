import Verif.SpecMachine
import Verif.Proof.Async
import Mathlib.Data.List.Forall2
/-!
# Machine integers: the programs agree

A program with natural numbers and its twin with machine integers take the same steps, as long as
what the steps report fits the machine.
-/

namespace Hyperbee

/-- Two programs take the same steps and end alike, as long as what the steps report fits, unless the first
panics on a node number out of range; what it returns satisfies `Q`. -/
inductive Mirror (B : Nat) (Q : α → Prop) : Prog α → Prog α → Prop where
  | pure {a : α} (h : Q a) : Mirror B Q (.pure a) (.pure a)
  | throw (e : Err) : Mirror B Q (.throw e) (.throw e)
  | panic (m : String) (q : Prog α) (hm : m ∈ offsetPanics) : Mirror B Q (.throw (.panic m)) q
  | step {β : Type} (x : Atom β) (k k' : Except Err β → Prog α)
      (h : ∀ r, x.Fits B r → Mirror B Q (k r) (k' r)) : Mirror B Q (.step x k) (.step x k')

namespace Mirror

variable {B : Nat}

theorem conseq {Q R : α → Prop} {p q : Prog α} (h : Mirror B Q p q) (hr : ∀ a, Q a → R a) : Mirror B R p q := by
  induction h with
  | pure h => exact .pure (hr _ h)
  | throw e => exact .throw e
  | panic m q hm => exact .panic m q hm
  | step x k k' _ ih => exact .step x k k' ih

theorem refl (p : Prog α) : Mirror B (fun _ => True) p p := by
  induction p with
  | pure a => exact .pure trivial
  | throw e => exact .throw e
  | step x k ih => exact .step x k k fun r _ => ih r

theorem ret {Q : α → Prop} {a : α} (h : Q a) : Mirror B Q (Pure.pure a) (Pure.pure a) := .pure h

theorem bind {Q : α → Prop} {R : β → Prop} {p q : Prog α} {f g : α → Prog β} (h : Mirror B Q p q)
    (hf : ∀ a, Q a → Mirror B R (f a) (g a)) : Mirror B R (p >>= f) (q >>= g) := by
  show Mirror B R (Prog.bind p f) (Prog.bind q g)
  induction h with
  | pure h => exact hf _ h
  | throw e => exact .throw e
  | panic m q hm => exact .panic m _ hm
  | step x k k' _ ih => exact .step x _ _ ih

theorem under {Q : α → Prop} {p q : Prog α} (a : Addr) (m : Mode) (h : Mirror B Q p q) :
    Mirror B Q (Prog.under a m p) (Prog.under a m q) := by
  induction h with
  | pure h => exact .pure h
  | throw e => exact .throw e
  | panic m q hm => exact .panic m _ hm
  | step x k k' _ ih => exact .step _ _ _ fun r hr => ih r hr

theorem tryResult {Q : α → Prop} {p q : Prog α} (h : Mirror B Q p q) :
    Mirror B (fun r => ∀ a, r = .ok a → Q a) (Prog.tryResult p) (Prog.tryResult q) := by
  induction h with
  | pure h => exact .pure fun a e => by cases e; exact h
  | throw e => cases e <;> first | exact .throw _ | exact .pure fun a e => by cases e
  | panic m q hm => exact .panic m _ hm
  | step x k k' _ ih => exact .step x _ _ ih

theorem lift {x : Atom β} {Q : β → Prop} (h : ∀ b, x.Fits B (.ok b) → Q b) :
    Mirror B Q (Prog.lift x) (Prog.lift x) := by
  refine .step x _ _ fun r hr => ?_
  cases r with
  | ok b => exact .pure (h b hr)
  | error e => exact .throw e

theorem orPanic {site : String} {o : Option α} {Q : α → Prop} (h : ∀ a, o = some a → Q a) :
    Mirror B Q (Prog.orPanic site o) (Prog.orPanic site o) := by
  cases o with
  | none => exact .throw _
  | some a => exact .pure (h a rfl)

theorem readNode (a : Addr) : Mirror B (fun n => n.keys.length < B ∧ n.children.length < B)
    (Prog.readNode a) (Prog.readNode a) := lift fun _ h => h

theorem edit (m : Mode) (a : Addr) (f : Node → Except Err (β × Node)) :
    Mirror B (fun _ => True) (Prog.edit m a f) (Prog.edit m a f) := refl _

theorem descentFuel : Mirror B (fun n => n < B) Prog.descentFuel Prog.descentFuel := lift fun _ h => h

theorem blocksGet (q : Nat) : Mirror B (fun e => e.nodes.length < B) (Prog.blocksGet q) (Prog.blocksGet q) := by
  unfold Prog.blocksGet
  refine bind (Q := fun o => ∀ e, o = some e → e.nodes.length < B)
    (lift fun b h e he => by subst he; exact h) fun o ho => ?_
  cases o with
  | some e => exact .pure (ho e rfl)
  | none =>
    refine bind (Q := fun o => ∀ e, o = some e → e.nodes.length < B)
      (lift fun b h e he => by subst he; exact h) fun o ho => ?_
    cases o with
    | none => exact .throw _
    | some e => exact bind (refl _) fun _ _ => .pure (ho e rfl)

end Mirror

/-! ## The programs -/

/-- So much room has a machine. -/
structure Machine.Has (μ : Machine) (B : Nat) : Prop where
  width : 8 * B ≤ 2 ^ μ.width
  two : 2 ≤ B

section

variable {μ : Machine} {B : Nat} (hμ : μ.Has B)
include hμ

theorem Machine.Has.add {a b : Nat} (h : a + b < 8 * B) : μ.add a b = Prog.pure (a + b) := by
  unfold Machine.add
  rw [if_pos (Nat.lt_of_lt_of_le h hμ.width)]; rfl

theorem Machine.Has.mul {a b : Nat} (h : a * b < 8 * B) : μ.mul a b = Prog.pure (a * b) := by
  unfold Machine.mul
  rw [if_pos (Nat.lt_of_lt_of_le h hμ.width)]; rfl

omit hμ in
theorem Mirror.retBind {a : α} {p : Prog β} {f : α → Prog β} {Q : β → Prop} (h : Mirror B Q p (f a)) :
    Mirror B Q p (Prog.pure a >>= f) := h

omit hμ in
theorem Machine.sub_eq {a b : Nat} (h : b ≤ a) : μ.sub a b = Prog.pure (a - b) := by
  unfold Machine.sub Machine.subOf
  rw [if_pos h]; rfl

theorem Mirror.add {a b : Nat} {p : Prog β} {f : Nat → Prog β} {Q : β → Prop} (h : a + b < 8 * B)
    (ht : Mirror B Q p (f (a + b))) : Mirror B Q p (μ.add a b >>= f) := by
  rw [hμ.add h]; exact ht

theorem Mirror.mul {a b : Nat} {p : Prog β} {f : Nat → Prog β} {Q : β → Prop} (h : a * b < 8 * B)
    (ht : Mirror B Q p (f (a * b))) : Mirror B Q p (μ.mul a b >>= f) := by
  rw [hμ.mul h]; exact ht

omit hμ in
theorem Mirror.sub {a b : Nat} {p : Prog β} {f : Nat → Prog β} {Q : β → Prop} (h : b ≤ a)
    (ht : Mirror B Q p (f (a - b))) : Mirror B Q p (μ.sub a b >>= f) := by
  rw [Machine.sub_eq h]; exact ht

theorem Mirror.getTreeNode {e : BlockEntry} (he : e.nodes.length < B) (o : Nat) :
    Mirror B (fun _ => True) (Prog.getTreeNode e o) (μ.getTreeNode e o) := by
  unfold Prog.getTreeNode Machine.getTreeNode Machine.tryFrom
  by_cases h : o < 2 ^ μ.width
  · rw [if_pos h]
    exact Mirror.refl _
  · rw [if_neg h]
    have := hμ.width
    rw [List.getElem?_eq_none (by omega)]
    exact .panic _ _ (by simp [offsetPanics])

theorem Mirror.getChild (a : Addr) (i : Nat) : Mirror B (fun _ => True) (Prog.getChild a i) (μ.getChild a i) := by
  unfold Prog.getChild Machine.getChild
  refine Mirror.bind (Mirror.readNode a) fun n _ => Mirror.under _ _ ?_
  refine Mirror.bind (Mirror.refl _) fun c _ => ?_
  exact Mirror.bind (Mirror.blocksGet _) fun e he => Mirror.getTreeNode hμ he _

theorem Mirror.nodeInsert (a : Addr) (key : Nat) (cs : List Child) {start : Nat} (stop : Nat) (h : start ≤ B) :
    Mirror B (fun _ => True) (Prog.nodeInsert a key cs start stop) (μ.nodeInsert a key cs start stop) := by
  unfold Prog.nodeInsert Machine.nodeInsert childrenInsert
  have := hμ.two
  by_cases hc : cs.isEmpty = true
  · simp only [hc, if_true]
    exact Mirror.refl _
  · simp only [hc]
    exact Mirror.add hμ (by omega) (Mirror.refl _)

theorem Mirror.searchLoop (a : Addr) (key : LimitValue) {N : Nat} (hN : N < B) :
    ∀ fuel low high, low ≤ N → high < N →
      Mirror B (fun r => r.2 ≤ N) (Prog.searchLoop a key fuel low high) (μ.searchLoop a key fuel low high) := by
  intro fuel
  induction fuel with
  | zero => intro low high _ _; exact .throw _
  | succ fuel ih =>
    intro low high hl hh
    unfold Prog.searchLoop Machine.searchLoop
    by_cases h : low ≤ high
    · rw [if_pos h, if_pos h]
      have hd : low + ((high - low) >>> 1) ≤ high := by
        rw [Nat.shiftRight_eq_div_pow]; omega
      refine Mirror.sub h (Mirror.add hμ (by omega) ?_)
      refine Mirror.bind (Mirror.refl _) fun kv _ => ?_
      by_cases he : key.eqBytes kv.key = true
      · rw [if_pos he, if_pos he]
        exact Mirror.ret (by show low + ((high - low) >>> 1) ≤ N; omega)
      · rw [if_neg he, if_neg he]
        by_cases hc : key.cmp kv.key = .lt
        · rw [if_pos hc, if_pos hc]
          by_cases h0 : low + ((high - low) >>> 1) = 0
          · rw [if_pos h0, if_pos h0]
            exact Mirror.ret hl
          · rw [if_neg h0, if_neg h0]
            exact Mirror.sub (by omega) (ih _ _ hl (by omega))
        · rw [if_neg hc, if_neg hc]
          exact Mirror.add hμ (by omega) (ih _ _ (by omega) hh)
    · rw [if_neg h, if_neg h]
      exact Mirror.ret hl

theorem Mirror.getIndexOfKey (a : Addr) (key : LimitValue) :
    Mirror B (fun r => r.2 < B) (Prog.getIndexOfKey a key) (μ.getIndexOfKey a key) := by
  unfold Prog.getIndexOfKey Machine.getIndexOfKey
  refine Mirror.bind (Mirror.readNode a) fun n hn => ?_
  have := hμ.two
  simp only []
  by_cases h : n.keys.length = 0
  · rw [if_pos h, if_pos h]
    exact Mirror.ret hn.1
  · rw [if_neg h, if_neg h]
    refine Mirror.sub (by omega) ?_
    exact (Mirror.searchLoop hμ a key hn.1 _ _ _ (by omega) (by omega)).conseq fun r hr => by have := hn.1; omega

/-- The path of a search fits. -/
def PathFits (B n : Nat) (path : NodePath) : Prop := path.length ≤ n ∧ ∀ p ∈ path, p.2 < B

theorem Mirror.nearestLoop (key : LimitValue) : ∀ fuel a path n, PathFits B n path →
    Mirror B (fun r => PathFits B (n + fuel) r.2) (Prog.nearestLoop key fuel a path) (μ.nearestLoop key fuel a path) := by
  intro fuel
  induction fuel with
  | zero => intro a path n _; exact .throw _
  | succ fuel ih =>
    intro a path n hp
    unfold Prog.nearestLoop Machine.nearestLoop
    refine Mirror.bind (Mirror.getIndexOfKey hμ a key) ?_
    rintro ⟨m, i⟩ hi
    have hp' : PathFits B (n + 1) ((a, i) :: path) := by
      refine ⟨by simpa using hp.1, fun p h => ?_⟩
      rcases List.mem_cons.1 h with rfl | h
      · exact hi
      · exact hp.2 p h
    refine Mirror.bind (Mirror.refl _) fun leaf _ => ?_
    by_cases hc : (m.isSome || leaf) = true
    · simp only [hc, if_true]
      exact Mirror.ret ⟨by have := hp'.1; show ((a, i) :: path).length ≤ n + (fuel + 1); omega, hp'.2⟩
    · simp only [hc]
      refine Mirror.bind (Mirror.getChild hμ a i) fun c _ => ?_
      refine (ih c _ (n + 1) hp').conseq fun r hr => ⟨?_, hr.2⟩
      have := hr.1; omega

theorem Mirror.nearestNode (a : Addr) (key : LimitValue) :
    Mirror B (fun r => PathFits B B r.2) (Prog.nearestNode a key) (μ.nearestNode a key) := by
  unfold Prog.nearestNode Machine.nearestNode
  refine Mirror.bind Mirror.descentFuel fun fuel hf => ?_
  refine (Mirror.nearestLoop hμ key fuel a [] 0 ⟨Nat.le_refl _, fun p h => by cases h⟩).conseq fun r hr => ⟨?_, hr.2⟩
  have := hr.1; omega

theorem Mirror.reorderLoop (seq : Nat) (nodes : List Addr) (hn : nodes.length < 8 * B) : ∀ fuel stack out,
    Mirror B (fun _ => True) (Prog.reorderLoop seq nodes fuel stack out) (μ.reorderLoop seq nodes fuel stack out) := by
  intro fuel
  induction fuel with
  | zero =>
    intro stack out
    cases stack with
    | nil => unfold Prog.reorderLoop Machine.reorderLoop; exact Mirror.refl _
    | cons x xs => unfold Prog.reorderLoop Machine.reorderLoop; exact .throw _
  | succ fuel ih =>
    intro stack out
    cases stack with
    | nil => unfold Prog.reorderLoop Machine.reorderLoop; exact Mirror.refl _
    | cons x xs =>
      obtain ⟨a, i⟩ := x
      unfold Prog.reorderLoop Machine.reorderLoop
      refine Mirror.bind (Mirror.refl _) fun n _ => ?_
      refine Mirror.bind (Mirror.refl _) fun c _ => ?_
      refine Mirror.bind (Mirror.refl _) fun _ _ => ?_
      by_cases h : c.offset < 2 ^ μ.width
      · rw [show μ.asUsize c.offset = c.offset from Nat.mod_eq_of_lt h]
        refine Mirror.bind (Mirror.refl _) fun b _ => ?_
        exact Mirror.bind (Mirror.refl _) fun more _ => ih _ _
      · have := hμ.width
        rw [show nodes[c.offset]? = none from List.getElem?_eq_none (by omega)]
        exact .panic _ _ (by simp [offsetPanics])

theorem Mirror.addChanges (ch : Changes) (h : ch.nodes.length < 8 * B) :
    Mirror B (fun _ => True) (Prog.addChanges ch) (μ.addChanges ch) := by
  unfold Prog.addChanges Machine.addChanges
  refine Mirror.bind (Q := fun _ => True) ?_ fun _ _ => Mirror.refl _
  unfold Prog.reorderNodes Machine.reorderNodes
  refine Mirror.bind (Mirror.refl _) fun root _ => ?_
  exact Mirror.bind (Mirror.refl _) fun stack _ => Mirror.reorderLoop hμ _ _ h _ _ _

theorem Mirror.getRoot (ensure : Bool) : Mirror B (fun _ => True) (Prog.getRoot ensure) (μ.getRoot ensure) := by
  unfold Prog.getRoot Machine.getRoot
  refine Mirror.bind (Mirror.refl _) fun v _ => ?_
  by_cases h : v ≤ 1
  · rw [if_pos h, if_pos h]
    exact Mirror.refl _
  · rw [if_neg h, if_neg h]
    unfold Machine.subOf
    rw [if_pos (by omega)]
    refine Mirror.bind (Mirror.blocksGet _) fun e he => ?_
    exact Mirror.bind (Mirror.getTreeNode hμ he 0) fun _ _ => Mirror.refl _

theorem Mirror.get (key : Bytes) : Mirror B (fun _ => True) (Prog.get key) (μ.get key) := by
  unfold Prog.get Machine.get
  refine Mirror.bind (Mirror.getRoot hμ false) fun r _ => ?_
  cases r with
  | none => exact Mirror.refl _
  | some root => exact Mirror.bind (Mirror.nearestNode hμ root _) fun r _ => Mirror.refl _

/-! ### Writes -/

omit hμ in
theorem Mirror.propagate : ∀ (path : NodePath) (ch : Changes) (c : Child),
    Mirror B (fun r => r.nodes.length ≤ ch.nodes.length + path.length) (Prog.propagate ch path c) (Prog.propagate ch path c) := by
  intro path
  induction path with
  | nil => intro ch c; exact .pure (Nat.le_refl _)
  | cons p path ih =>
    intro ch c
    obtain ⟨a, i⟩ := p
    unfold Prog.propagate
    refine Mirror.bind (Mirror.refl _) fun _ _ => ?_
    refine (ih _ _).conseq fun r hr => ?_
    simp only [List.length_append, List.length_cons, List.length_nil] at hr ⊢
    omega

theorem Mirror.putLoop (matched : Bool) : ∀ (path : NodePath) (ch : Changes) (k : Nat) (cs : List Child),
    (∀ p ∈ path, p.2 ≤ B) →
    Mirror B (fun r => r.nodes.length ≤ ch.nodes.length + 2 * path.length + 1)
      (Prog.putLoop matched path ch k cs) (μ.putLoop matched path ch k cs) := by
  intro path
  have h2 := hμ.two
  have hadd : ∀ (ch : Changes) (a : Addr), (ch.addNode a).1.nodes.length = ch.nodes.length + 1 := by
    intro ch a; simp [Changes.addNode]
  induction path with
  | nil =>
    intro ch k cs _
    unfold Prog.putLoop Machine.putLoop
    refine Mirror.bind (Mirror.refl _) fun a _ => Mirror.ret ?_
    exact Nat.le_of_eq (hadd ch a)
  | cons p path ih =>
    intro ch k cs hp
    obtain ⟨a, i⟩ := p
    have hi : i ≤ B := hp _ (List.mem_cons_self ..)
    unfold Prog.putLoop Machine.putLoop
    refine Mirror.bind (Mirror.readNode a) fun n _ => ?_
    simp only [List.length_cons]
    by_cases h : matched = true ∨ n.keys.length < MAX_KEYS
    · rw [if_pos h, if_pos h]
      have key : ∀ stop, Mirror B (fun r : Changes => r.nodes.length ≤ ch.nodes.length + 2 * (path.length + 1) + 1)
          (do
            Prog.nodeInsert a k cs i stop
            let (ch, child) := ch.addNode a
            if path.isEmpty then Pure.pure ch else Prog.propagate ch path child)
          (do
            μ.nodeInsert a k cs i stop
            let (ch, child) := ch.addNode a
            if path.isEmpty then Pure.pure ch else Prog.propagate ch path child) := by
        intro stop
        refine Mirror.bind (Mirror.nodeInsert hμ a k cs stop hi) fun _ _ => ?_
        have := hadd ch a
        by_cases he : path.isEmpty = true
        · simp only [he, if_true]
          exact Mirror.ret (by omega)
        · simp only [he]
          exact (Mirror.propagate path _ _).conseq fun r hr => by omega
      cases matched with
      | true => exact Mirror.add hμ (by omega) (key _)
      | false => exact key i
    · rw [if_neg h, if_neg h]
      refine Mirror.bind (Mirror.nodeInsert hμ a k cs _ hi) fun _ _ => ?_
      refine Mirror.bind (Mirror.refl _) ?_
      rintro ⟨l, m, r⟩ _
      refine (ih _ m _ fun p h => hp p (List.mem_cons_of_mem _ h)).conseq fun r' hr => ?_
      have h1 : ((ch.addNode l).1.addNode r).1.nodes.length = ch.nodes.length + 2 := by rw [hadd, hadd]
      have h2 : r'.nodes.length ≤ ((ch.addNode l).1.addNode r).1.nodes.length + 2 * path.length + 1 := hr
      omega

/-- Changes small enough to be written. -/
def Prepared.Fits (B : Nat) : Prepared α → Prop
  | .done _ => True
  | .commit ch _ => ch.nodes.length < 8 * B

theorem Mirror.commitPrepared {p : Prepared α} (h : p.Fits B) :
    Mirror B (fun _ => True) (Prog.commitPrepared p) (μ.commitPrepared p) := by
  cases p with
  | done a => exact Mirror.refl _
  | commit ch a => exact Mirror.bind (Mirror.addChanges hμ ch h) fun _ _ => Mirror.refl _

theorem Mirror.putPrepare (key : Bytes) (value : Option Bytes) (cas : Option KeyValueData → KeyValueData → Bool) :
    Mirror B (Prepared.Fits B) (Prog.putPrepare key value cas) (μ.putPrepare key value cas) := by
  have h2 := hμ.two
  unfold Prog.putPrepare Machine.putPrepare
  refine Mirror.bind (Mirror.getRoot hμ true) fun r _ => ?_
  refine Mirror.bind (Mirror.refl _) fun v _ => ?_
  cases r with
  | none =>
    simp only []
    split
    · exact Mirror.ret trivial
    · refine Mirror.bind (Mirror.putLoop hμ false [] _ _ _ fun p h => by cases h) fun ch hch => Mirror.ret ?_
      show ch.nodes.length < 8 * B
      simp only [Changes.new, List.length_nil] at hch
      omega
  | some root =>
    simp only []
    refine Mirror.bind (Mirror.nearestNode hμ root _) ?_
    rintro ⟨m, path⟩ hp
    have key : ∀ old : Option KeyValueData, Mirror B (Prepared.Fits B)
        (if cas old ⟨v, key, value⟩ = false then Pure.pure (Prepared.done (m, none))
          else do
            let ch ← Prog.putLoop m.isSome path (Changes.new v key value) v []
            Pure.pure (Prepared.commit ch (m, some v)))
        (if cas old ⟨v, key, value⟩ = false then Pure.pure (Prepared.done (m, none))
          else do
            let ch ← μ.putLoop m.isSome path (Changes.new v key value) v []
            Pure.pure (Prepared.commit ch (m, some v))) := by
      intro old
      split
      · exact Mirror.ret trivial
      · refine Mirror.bind (Mirror.putLoop hμ _ path _ _ _ fun p h => Nat.le_of_lt (hp.2 p h)) fun ch hch => Mirror.ret ?_
        show ch.nodes.length < 8 * B
        simp only [Changes.new, List.length_nil] at hch
        have := hp.1
        simp only [] at this
        omega
    cases m with
    | none => exact key none
    | some q =>
      refine Mirror.bind (Mirror.refl _) ?_
      rintro ⟨a, i⟩ _
      exact Mirror.bind (Mirror.refl _) fun kv _ => key (some kv)

theorem Mirror.putCompareAndSwap (key : Bytes) (value : Option Bytes)
    (cas : Option KeyValueData → KeyValueData → Bool) :
    Mirror B (fun _ => True) (Prog.putCompareAndSwap key value cas) (μ.putCompareAndSwap key value cas) :=
  Mirror.bind (Mirror.putPrepare hμ key value cas) fun _ hp => Mirror.commitPrepared hμ hp

theorem Mirror.put (key : Bytes) (value : Option Bytes) :
    Mirror B (fun _ => True) (Prog.put key value) (μ.put key value) :=
  Mirror.bind (Mirror.putCompareAndSwap hμ key value _) fun _ _ => Mirror.refl _

/-! ### Deletions -/

theorem Mirror.replaceRemovedInternalKey {path : NodePath} (node : Addr) {keyIndex : Nat} (hp : PathFits B B path)
    (hi : keyIndex < B) :
    Mirror B (PathFits (B + 1) (2 * B + 1)) (Prog.replaceRemovedInternalKey path node keyIndex)
      (μ.replaceRemovedInternalKey path node keyIndex) := by
  have h2 := hμ.two
  unfold Prog.replaceRemovedInternalKey Machine.replaceRemovedInternalKey
  refine Mirror.add hμ (by omega) ?_
  refine Mirror.bind (Mirror.getChild hμ _ _) fun lc _ => ?_
  refine Mirror.bind (Mirror.nearestNode hμ _ _) ?_
  rintro ⟨_, lp⟩ hlp
  refine Mirror.bind (Mirror.refl _) ?_
  rintro ⟨ll, _⟩ _
  refine Mirror.bind (Mirror.refl _) fun ln _ => ?_
  refine Mirror.bind (Mirror.getChild hμ _ _) fun rc _ => ?_
  refine Mirror.bind (Mirror.nearestNode hμ _ _) ?_
  rintro ⟨_, rp⟩ hrp
  refine Mirror.bind (Mirror.refl _) ?_
  rintro ⟨rl, _⟩ _
  refine Mirror.bind (Mirror.refl _) fun rn _ => ?_
  have key : ∀ (ci rk : Nat) (bot : NodePath), ci ≤ B → PathFits B B bot → Mirror B (PathFits (B + 1) (2 * B + 1))
      (do
        Prog.edit .write node fun n => do
          let ks ← Prog.need "del.rs:65 keys.insert" (vecInsert n.keys keyIndex rk)
          Pure.pure ((), { n with keys := ks })
        Pure.pure (bot ++ (node, ci) :: path))
      (do
        Prog.edit .write node fun n => do
          let ks ← Prog.need "del.rs:65 keys.insert" (vecInsert n.keys keyIndex rk)
          Pure.pure ((), { n with keys := ks })
        Pure.pure (bot ++ (node, ci) :: path)) := by
    intro ci rk bot hc hb
    refine Mirror.bind (Mirror.refl _) fun _ _ => Mirror.ret ⟨?_, ?_⟩
    · have h1 := hp.1
      have h2 := hb.1
      simp only [List.length_append, List.length_cons] at *
      omega
    · intro p hpm
      rcases List.mem_append.1 hpm with h | h
      · exact Nat.lt_succ_of_lt (hb.2 p h)
      · rcases List.mem_cons.1 h with rfl | h
        · exact Nat.lt_succ_of_le hc
        · exact Nat.lt_succ_of_lt (hp.2 p h)
  by_cases hlt : ln.keys.length < rn.keys.length
  · simp only [hlt, if_true]
    exact Mirror.bind (Mirror.refl _) fun d _ => key _ _ _ (by omega) hrp
  · simp only [hlt, if_false]
    exact Mirror.bind (Mirror.refl _) fun d _ => key _ _ _ (by omega) hlp

theorem Mirror.getDonorIndex (side : Side) (father : Addr) {d : Nat} (hd : d ≤ B) :
    Mirror B (fun r => ∀ i, r = some i → side = .left → d ≠ 0) (Prog.Side.getDonorIndex side father d)
      (μ.getDonorIndex side father d) := by
  have h2 := hμ.two
  unfold Prog.Side.getDonorIndex Machine.getDonorIndex
  cases side with
  | left =>
    simp only []
    by_cases h : d = 0
    · rw [if_pos h, if_pos h]; exact Mirror.ret fun i hi => nomatch hi
    · rw [if_neg h, if_neg h]; exact Mirror.sub (by omega) (Mirror.ret fun i _ _ => h)
  | right =>
    refine Mirror.add hμ (by omega) ?_
    refine Mirror.bind (Mirror.refl _) fun n _ => ?_
    by_cases h : d + 1 ≥ n.children.length
    · rw [if_pos h, if_pos h]; exact Mirror.ret fun i hi => nomatch hi
    · rw [if_neg h, if_neg h]; exact Mirror.add hμ (by omega) (Mirror.ret fun i _ hs => nomatch hs)

omit hμ in
theorem Machine.getKeyIndex_eq {side : Side} {d : Nat} (h : side = .left → d ≠ 0) :
    μ.getKeyIndex side d = Prog.pure (side.getKeyIndex d) := by
  cases side with
  | right => rfl
  | left => exact Machine.sub_eq (by have := h rfl; omega)

theorem Mirror.swapDonorKeyInFather {side : Side} (father : Addr) {d : Nat} (key : Nat) (hd : d ≤ B)
    (h : side = .left → d ≠ 0) :
    Mirror B (fun _ => True) (Prog.Side.swapDonorKeyInFather side father d key) (μ.swapDonorKeyInFather side father d key) := by
  have h2 := hμ.two
  unfold Prog.Side.swapDonorKeyInFather Machine.swapDonorKeyInFather
  rw [Machine.getKeyIndex_eq h]
  refine Mirror.add hμ ?_ (Mirror.refl _)
  cases side <;> simp only [Side.getKeyIndex] <;> omega

theorem Mirror.canRotate (side : Side) (father : Addr) {d : Nat} (order : Nat) (hd : d ≤ B) :
    Mirror B (fun r => ∀ i, r = some i → side = .left → d ≠ 0) (Prog.Side.canRotate side father d order)
      (μ.canRotate side father d order) := by
  unfold Prog.Side.canRotate Machine.canRotate
  refine Mirror.bind (Mirror.getDonorIndex hμ side father hd) fun r hr => ?_
  cases r with
  | none => exact Mirror.ret fun i hi => nomatch hi
  | some i =>
    refine Mirror.bind (Mirror.getChild hμ _ _) fun c _ => ?_
    refine Mirror.bind (Mirror.refl _) fun n _ => ?_
    split
    · exact Mirror.ret fun _ _ => hr i rfl
    · exact Mirror.ret fun i hi => nomatch hi

theorem Mirror.rotate {side : Side} (father : Addr) {d : Nat} (child : Addr) (i : Nat) (donor : Addr) (ch : Changes)
    (hd : d ≤ B) (h : side = .left → d ≠ 0) :
    Mirror B (fun r => r.nodes.length ≤ ch.nodes.length + 2) (Prog.Side.rotate side father d child i donor ch)
      (μ.rotate side father d child i donor ch) := by
  unfold Prog.Side.rotate Machine.rotate
  refine Mirror.bind (Mirror.refl _) fun k _ => ?_
  refine Mirror.bind (Mirror.refl _) fun c _ => ?_
  refine Mirror.bind (Mirror.swapDonorKeyInFather hμ father k hd h) fun f _ => ?_
  refine Mirror.bind (Mirror.refl _) fun _ _ => ?_
  refine Mirror.bind (Mirror.refl _) fun _ _ => ?_
  refine Mirror.bind (Mirror.refl _) fun _ _ => Mirror.ret ?_
  simp only [Changes.addNode, List.length_append, List.length_cons, List.length_nil]
  omega

theorem Mirror.maybeRotate (side : Side) (father : Addr) {d : Nat} (child : Addr) (order : Nat) (ch : Changes)
    (hd : d ≤ B) :
    Mirror B (fun r => ∀ c, r = some c → c.nodes.length ≤ ch.nodes.length + 2)
      (Prog.Side.maybeRotate side father d child order ch) (μ.maybeRotate side father d child order ch) := by
  unfold Prog.Side.maybeRotate Machine.maybeRotate
  refine Mirror.bind (Mirror.canRotate hμ side father order hd) fun r hr => ?_
  cases r with
  | none => exact Mirror.ret fun i hi => nomatch hi
  | some x =>
    obtain ⟨i, donor⟩ := x
    refine Mirror.bind (Mirror.rotate hμ father child i donor ch hd (hr _ rfl)) fun c hc => Mirror.ret ?_
    intro c' hc'
    cases hc'
    exact hc

theorem Mirror.maybeMerge (side : Side) (father : Addr) {d : Nat} (child : Addr) (ch : Changes) (hd : d ≤ B) :
    Mirror B (fun r => ∀ c, r = some c → c.nodes.length ≤ ch.nodes.length + 2)
      (Prog.Side.maybeMerge side father d child ch) (μ.maybeMerge side father d child ch) := by
  have h2 := hμ.two
  unfold Prog.Side.maybeMerge Machine.maybeMerge
  refine Mirror.bind (Mirror.getDonorIndex hμ side father hd) fun r hr => ?_
  cases r with
  | none => exact Mirror.ret fun i hi => nomatch hi
  | some i =>
    refine Mirror.bind (Mirror.getChild hμ _ _) fun donor _ => ?_
    simp only []
    have h0 := hr i rfl
    rw [Machine.getKeyIndex_eq h0]
    refine Mirror.retBind ?_
    cases side with
    | right =>
      refine Mirror.bind (Mirror.refl _) fun f _ => ?_
      refine Mirror.add hμ (by omega) ?_
      refine Mirror.add hμ (by omega) ?_
      refine Mirror.bind (Mirror.refl _) fun _ _ => ?_
      refine Mirror.bind (Mirror.refl _) fun _ _ => ?_
      refine Mirror.bind (Mirror.refl _) fun _ _ => ?_
      refine Mirror.bind (Mirror.refl _) fun _ _ => ?_
      refine Mirror.bind (Mirror.refl _) fun _ _ => ?_
      refine Mirror.bind (Mirror.refl _) fun _ _ => ?_
      refine Mirror.sub (by omega) ?_
      refine Mirror.bind (Mirror.refl _) fun _ _ => Mirror.ret fun c hc => ?_
      cases hc
      simp only [Changes.addNode, List.length_append, List.length_cons, List.length_nil]
      omega
    | left =>
      have h0 := h0 rfl
      refine Mirror.bind (Mirror.refl _) fun f _ => ?_
      refine Mirror.add hμ (by omega) ?_
      refine Mirror.bind (Mirror.refl _) fun _ _ => ?_
      refine Mirror.bind (Mirror.refl _) fun _ _ => ?_
      refine Mirror.bind (Mirror.refl _) fun _ _ => ?_
      refine Mirror.bind (Mirror.refl _) fun _ _ => ?_
      refine Mirror.bind (Mirror.refl _) fun _ _ => ?_
      refine Mirror.bind (Mirror.refl _) fun _ _ => ?_
      refine Mirror.sub (by omega) ?_
      refine Mirror.bind (Mirror.refl _) fun _ _ => Mirror.ret fun c hc => ?_
      cases hc
      simp only [Changes.addNode, List.length_append, List.length_cons, List.length_nil]
      omega

theorem Mirror.repairOne (father : Addr) {d : Nat} (child : Addr) (order : Nat) (ch : Changes) (hd : d ≤ B) :
    Mirror B (fun c => c.nodes.length ≤ ch.nodes.length + 2)
      (Prog.repairOne father d child order ch) (μ.repairOne father d child order ch) := by
  unfold Prog.repairOne Machine.repairOne
  refine Mirror.bind (Mirror.maybeRotate hμ .left father child order ch hd) fun r hr => ?_
  cases r with
  | some c => exact Mirror.ret (hr c rfl)
  | none =>
  refine Mirror.bind (Mirror.maybeRotate hμ .right father child order ch hd) fun r hr => ?_
  cases r with
  | some c => exact Mirror.ret (hr c rfl)
  | none =>
  refine Mirror.bind (Mirror.maybeMerge hμ .left father child ch hd) fun r hr => ?_
  cases r with
  | some c => exact Mirror.ret (hr c rfl)
  | none =>
  refine Mirror.bind (Mirror.maybeMerge hμ .right father child ch hd) fun r hr => ?_
  cases r with
  | some c => exact Mirror.ret (hr c rfl)
  | none => exact .throw _

theorem Mirror.repairLoop (order : Nat) : ∀ (path : NodePath) (father : Addr) (d : Nat) (child : Addr) (ch : Changes),
    (∀ p ∈ path, p.2 ≤ B) → d ≤ B →
    Mirror B (fun r => r.2.2.nodes.length + r.2.1.length ≤ ch.nodes.length + 3 + 2 * path.length)
      (Prog.repairLoop order path father d child ch) (μ.repairLoop order path father d child ch) := by
  intro path
  induction path with
  | nil =>
    intro father d child ch _ hd
    unfold Prog.repairLoop Machine.repairLoop
    refine Mirror.bind (Mirror.repairOne hμ father child order ch hd) fun c hc => ?_
    refine Mirror.bind (Mirror.refl _) fun e _ => ?_
    split
    · refine Mirror.bind (Mirror.refl _) fun n _ => ?_
      refine Mirror.bind (Mirror.refl _) fun x _ => Mirror.ret ?_
      simp only [List.length_nil]
      omega
    · refine Mirror.ret ?_
      simp only [Changes.addNode, List.length_append, List.length_cons, List.length_nil]
      omega
  | cons p path ih =>
    intro father d child ch hp hd
    obtain ⟨a, i⟩ := p
    unfold Prog.repairLoop Machine.repairLoop
    refine Mirror.bind (Mirror.repairOne hμ father child order ch hd) fun c hc => ?_
    refine Mirror.bind (Mirror.refl _) fun e _ => ?_
    split
    · refine Mirror.bind (Mirror.refl _) fun n _ => ?_
      refine Mirror.bind (Mirror.refl _) fun x _ => Mirror.ret ?_
      simp only [List.length_cons]
      omega
    · simp only []
      refine Mirror.bind (Mirror.refl _) fun n _ => ?_
      split
      · refine Mirror.ret ?_
        simp only [Changes.addNode, List.length_append, List.length_cons, List.length_nil]
        omega
      · refine (ih a i father c (fun p h => hp p (List.mem_cons_of_mem _ h)) (hp _ (List.mem_cons_self ..))).conseq
          fun r hr => ?_
        simp only [List.length_cons]
        omega

theorem Mirror.repair {path : NodePath} (order : Nat) (ch : Changes) (hp : ∀ p ∈ path, p.2 ≤ B) :
    Mirror B (fun r => r.2.2.nodes.length + r.2.1.length ≤ ch.nodes.length + 1 + 2 * path.length)
      (Prog.repair path order ch) (μ.repair path order ch) := by
  unfold Prog.repair Machine.repair
  cases path with
  | nil => exact .throw _
  | cons p path =>
    obtain ⟨a, i⟩ := p
    simp only []
    refine Mirror.bind (Mirror.getChild hμ _ _) fun c _ => ?_
    refine (Mirror.repairLoop hμ order path a i c ch (fun p h => hp p (List.mem_cons_of_mem _ h))
      (hp _ (List.mem_cons_self ..))).conseq fun r hr => ?_
    simp only [List.length_cons]
    omega

theorem Mirror.delChanges (key : Bytes) {path : NodePath} (hp : PathFits B B path) :
    Mirror B (fun r => r.nodes.length < 8 * B) (Prog.delChanges key path) (μ.delChanges key path) := by
  have h2 := hμ.two
  unfold Prog.delChanges Machine.delChanges
  refine Mirror.bind (Mirror.refl _) fun v _ => ?_
  cases path with
  | nil => exact .throw _
  | cons p path =>
    obtain ⟨a, i⟩ := p
    simp only []
    have hi : i < B := hp.2 _ (List.mem_cons_self ..)
    refine Mirror.bind (Mirror.refl _) fun _ _ => ?_
    refine Mirror.bind (Mirror.refl _) fun leaf _ => ?_
    have key : ∀ path : NodePath, PathFits (B + 1) (2 * B + 1) path → Mirror B (fun r : Changes => r.nodes.length < 8 * B)
        (match path with
        | [] => Prog.throw (.panic "del.rs:457 if/else above ensures path is not empty")
        | (bottomNode, _) :: path => do
          let bn ← Prog.readNode bottomNode
          let (childRef, path, ch) ←
            if path.isEmpty = false ∧ bn.keys.length < minKeys MAX_KEYS then
              Prog.repair path MAX_KEYS (Changes.new v key none)
            else
              let (ch, c) := (Changes.new v key none).addNode bottomNode
              Pure.pure (c, path, ch)
          if path.isEmpty = false then Prog.propagate ch path childRef else Pure.pure ch)
        (match path with
        | [] => Prog.throw (.panic "del.rs:457 if/else above ensures path is not empty")
        | (bottomNode, _) :: path => do
          let bn ← Prog.readNode bottomNode
          let (childRef, path, ch) ←
            if path.isEmpty = false ∧ bn.keys.length < minKeys MAX_KEYS then
              μ.repair path MAX_KEYS (Changes.new v key none)
            else
              let (ch, c) := (Changes.new v key none).addNode bottomNode
              Pure.pure (c, path, ch)
          if path.isEmpty = false then Prog.propagate ch path childRef else Pure.pure ch) := by
      intro path hp
      cases path with
      | nil => exact .throw _
      | cons p path =>
        obtain ⟨b, j⟩ := p
        simp only []
        have hl : path.length ≤ 2 * B := by have := hp.1; simp only [List.length_cons] at this; omega
        refine Mirror.bind (Mirror.refl _) fun bn _ => ?_
        have up : ∀ (c : Child) (path : NodePath) (ch : Changes), ch.nodes.length + path.length < 8 * B →
            Mirror B (fun r : Changes => r.nodes.length < 8 * B)
              (if path.isEmpty = false then Prog.propagate ch path c else Pure.pure ch)
              (if path.isEmpty = false then Prog.propagate ch path c else Pure.pure ch) := by
          intro c path ch h
          split
          · exact (Mirror.propagate path ch c).conseq fun r hr => by omega
          · exact Mirror.ret (by omega)
        split
        · refine Mirror.bind (Mirror.repair hμ MAX_KEYS _ fun p h => Nat.le_of_lt_succ (hp.2 p (List.mem_cons_of_mem _ h))) ?_
          rintro ⟨c, path', ch'⟩ hr
          refine up c path' ch' ?_
          simp only [Changes.new, List.length_nil] at hr
          omega
        · refine up _ path _ ?_
          simp only [Changes.addNode, Changes.new, List.length_append, List.length_cons, List.length_nil]
          omega
    cases leaf with
    | true => exact key _ ⟨by have := hp.1; omega, fun p h => Nat.lt_succ_of_lt (hp.2 p h)⟩
    | false =>
      refine Mirror.bind (Mirror.replaceRemovedInternalKey hμ a ?_ hi) fun path hp => key path hp
      exact ⟨by have := hp.1; simp only [List.length_cons] at this; omega, fun p h => hp.2 p (List.mem_cons_of_mem _ h)⟩

theorem Mirror.delPrepare (key : Bytes) (cas : KeyValueData → Bool) :
    Mirror B (Prepared.Fits B) (Prog.delPrepare key cas) (μ.delPrepare key cas) := by
  unfold Prog.delPrepare Machine.delPrepare
  refine Mirror.bind (Mirror.getRoot hμ false) fun r _ => ?_
  cases r with
  | none => exact Mirror.ret trivial
  | some root =>
    refine Mirror.bind (Mirror.nearestNode hμ root _) ?_
    rintro ⟨m, path⟩ hp
    cases m with
    | none => exact Mirror.ret trivial
    | some q =>
      refine Mirror.bind (Mirror.refl _) ?_
      rintro ⟨a, i⟩ _
      refine Mirror.bind (Mirror.refl _) fun kv _ => ?_
      split
      · exact Mirror.ret trivial
      · exact Mirror.bind (Mirror.delChanges hμ key hp) fun ch hch => Mirror.ret hch

theorem Mirror.delCompareAndSwap (key : Bytes) (cas : KeyValueData → Bool) :
    Mirror B (fun _ => True) (Prog.delCompareAndSwap key cas) (μ.delCompareAndSwap key cas) :=
  Mirror.bind (Mirror.delPrepare hμ key cas) fun _ hp => Mirror.commitPrepared hμ hp

theorem Mirror.del (key : Bytes) : Mirror B (fun _ => True) (Prog.del key) (μ.del key) :=
  Mirror.bind (Mirror.delCompareAndSwap hμ key _) fun _ _ => Mirror.refl _

/-! ### Traversals -/

theorem Mirror.startIndex (reversed inclusive leaf found : Bool) {index : Nat} (hi : index < B) :
    ∃ o : Option Nat, μ.startIndex reversed inclusive leaf found index = Prog.pure o ∧ (∀ i, o = some i → i ≤ 2 * B + 1) ∧
      o = (if found then
          let keyIndex := index * 2 + 1
          if inclusive then some keyIndex
          else if !reversed then some (keyIndex + if leaf then 2 else 1)
          else if keyIndex = 1 ∧ (if leaf then 2 else 1) = 2 then none
          else some (keyIndex - if leaf then 2 else 1)
        else
          let childIndex := index * 2
          if !leaf then some childIndex
          else if !reversed then some (childIndex + 1)
          else if childIndex = 0 then some 0
          else some (childIndex - 1)) := by
  have h2 := hμ.two
  have hm : μ.mul index 2 = Prog.pure (index * 2) := hμ.mul (by omega)
  have ha : μ.add (index * 2) 1 = Prog.pure (index * 2 + 1) := hμ.add (by omega)
  have h3 : ∀ k, k ≤ 2 → μ.add (index * 2 + 1) k = Prog.pure (index * 2 + 1 + k) := fun k hk => hμ.add (by omega)
  have bindp : ∀ {α γ : Type} (a : α) (f : α → Prog γ), (Prog.pure a >>= f) = f a := fun _ _ => rfl
  unfold Machine.startIndex
  cases found with
  | true =>
    simp only [if_true, hm, bindp, ha]
    cases inclusive with
    | true =>
      refine ⟨some (index * 2 + 1), rfl, ?_, rfl⟩
      intro i h; cases h; omega
    | false =>
      cases reversed with
      | false =>
        simp only [Bool.not_false, if_true]
        refine ⟨some (index * 2 + 1 + if leaf then 2 else 1), ?_, ?_, by simp⟩
        · rw [h3 _ (by cases leaf <;> simp)]; rfl
        · intro i h; cases h; cases leaf <;> simp <;> omega
      | true =>
        cases leaf with
        | true =>
          by_cases hc : index = 0
          · subst hc
            exact ⟨none, rfl, (by intro i h; cases h), rfl⟩
          · have hz : index * 2 ≠ 0 := by omega
            refine ⟨some (index * 2 + 1 - 2), ?_, (by intro i h; cases h; omega), by simp [hz]⟩
            rw [Machine.sub_eq (by show 2 ≤ index * 2 + 1; omega)]
            simp [hz]; rfl
        | false =>
          refine ⟨some (index * 2 + 1 - 1), ?_, (by intro i h; cases h; omega), by simp⟩
          have : ¬ (index * 2 + 1 = 1 ∧ (1 : Nat) = 2) := by omega
          simp only [Bool.not_true, Bool.false_eq_true, if_false, if_neg this]
          rw [Machine.sub_eq (by omega)]; rfl
  | false =>
    simp only [hm, bindp]
    cases leaf with
    | false => exact ⟨some (index * 2), rfl, (by intro i h; cases h; omega), rfl⟩
    | true =>
      cases reversed with
      | false =>
        refine ⟨some (index * 2 + 1), ?_, (by intro i h; cases h; omega), rfl⟩
        simp [ha]; rfl
      | true =>
        by_cases hc : index * 2 = 0
        · exact ⟨some 0, (by simp [hc]; rfl), (by intro i h; cases h; omega), by simp [hc]⟩
        · refine ⟨some (index * 2 - 1), ?_, (by intro i h; cases h; omega), by simp [hc]⟩
          simp only [Bool.not_true, Bool.false_eq_true, if_false, if_neg hc]
          rw [Machine.sub_eq (by omega)]; rfl

theorem Mirror.makeChildKeyIndexIter (conf : TraverseConfig) (node : Addr) {nKeys : Nat} (nChildren : Nat) (hk : nKeys < B) :
    Mirror B (fun _ => True) (Prog.makeChildKeyIndexIter conf node nKeys nChildren)
      (μ.makeChildKeyIndexIter conf node nKeys nChildren) := by
  have h2 := hμ.two
  unfold Prog.makeChildKeyIndexIter Machine.makeChildKeyIndexIter
  simp only []
  refine Mirror.bind (Mirror.getIndexOfKey hμ node _) ?_
  rintro ⟨m, i⟩ hi
  obtain ⟨o, ho, hb, he⟩ := Mirror.startIndex hμ conf.reversed
    (if conf.reversed = true then (conf.maxValue, conf.maxInclusive) else (conf.minValue, conf.minInclusive)).2
    (nChildren == 0) m.isSome hi
  simp only [] at ho he ⊢
  rw [ho, ← he]
  refine Mirror.retBind ?_
  cases o with
  | none => exact Mirror.refl _
  | some start =>
    have hs := hb start rfl
    simp only []
    cases conf.reversed with
    | false => exact Mirror.mul hμ (by omega) (Mirror.add hμ (by omega) (Mirror.refl _))
    | true =>
      refine Mirror.add hμ (by omega) ?_
      cases (nChildren == 0) <;> exact Mirror.refl _

/-- The numbers a stream has noted fit. -/
def Frame.Fits (B : Nat) (f : Frame) : Prop := ∀ p, f.nkc = some p → p.1 < B

theorem Mirror.pollSetup (ready : Bool) {f : Frame} (hf : f.Fits B) :
    Mirror B (fun r => ∀ g ∈ r.2, g.Fits B) (Prog.pollSetup ready f) (μ.pollSetup ready f) := by
  obtain ⟨cf, root, nkcFut, nkc, iterFut, iter, nextKey, nextChild⟩ := f
  unfold Prog.pollSetup Machine.pollSetup
  have one : ∀ g : Frame, g.nkc = nkc → ∀ g' ∈ [g], Frame.Fits B g' := by
    intro g hg g' h
    rw [List.mem_singleton] at h
    subst h
    intro p hp
    exact hf p (hg ▸ hp)
  cases nkc with
  | none =>
    cases nkcFut with
    | false => exact Mirror.ret (one _ rfl)
    | true =>
      cases ready with
      | false => exact Mirror.ret (one _ rfl)
      | true =>
        refine Mirror.bind (Mirror.readNode _) fun n hn => ?_
        refine Mirror.bind (Mirror.refl _) fun m _ => Mirror.ret ?_
        intro g hg
        rw [List.mem_singleton] at hg
        subst hg
        intro p hp
        cases hp
        exact hn.1
  | some p =>
    obtain ⟨nk, nc⟩ := p
    cases iter with
    | none =>
      cases iterFut with
      | none => exact Mirror.ret (one _ rfl)
      | some b =>
        cases b with
        | true => exact .throw _
        | false =>
          cases ready with
          | false => exact Mirror.ret (one _ rfl)
          | true =>
            refine Mirror.bind (Mirror.tryResult (Mirror.makeChildKeyIndexIter hμ cf root nc (hf _ rfl))) fun r _ => ?_
            cases r with
            | ok it => exact Mirror.ret (one _ rfl)
            | error e => exact Mirror.ret (one _ rfl)
    | some l =>
      cases l with
      | nil => exact Mirror.ret (one _ rfl)
      | cons i is =>
        simp only []
        split
        · exact Mirror.ret (one _ rfl)
        · exact Mirror.ret (one _ rfl)

theorem Mirror.poll (ready : Bool) : ∀ fs : List Frame, (∀ f ∈ fs, f.Fits B) →
    Mirror B (fun r => ∀ g ∈ r.2, g.Fits B) (Prog.poll ready fs) (μ.poll ready fs) := by
  intro fs
  induction fs with
  | nil => intro _; exact .throw _
  | cons f rest ih =>
    intro hf
    have h0 : f.Fits B := hf f (List.mem_cons_self ..)
    have hr : ∀ g ∈ rest, g.Fits B := fun g h => hf g (List.mem_cons_of_mem _ h)
    have two : ∀ (g : Frame) (gs : List Frame), g.nkc = f.nkc → (∀ g ∈ gs, Frame.Fits B g) →
        ∀ g' ∈ g :: gs, Frame.Fits B g' := by
      intro g gs hg hgs g' h
      rcases List.mem_cons.1 h with rfl | h
      · intro p hp; exact h0 p (hg ▸ hp)
      · exact hgs g' h
    obtain ⟨cf, root, nkcFut, nkc, iterFut, iter, nextKey, nextChild⟩ := f
    unfold Prog.poll Machine.poll
    cases nextKey with
    | some x =>
      obtain ⟨i, done⟩ := x
      cases done with
      | true => exact .throw _
      | false =>
        cases ready with
        | false => exact Mirror.ret (two _ _ rfl hr)
        | true =>
          refine Mirror.bind (Mirror.refl _) fun r _ => ?_
          cases r with
          | ok kv =>
            simp only []
            split
            · exact Mirror.ret (two _ _ rfl hr)
            · exact Mirror.ret (two _ _ rfl hr)
          | error e => exact Mirror.ret (two _ _ rfl hr)
    | none =>
      cases nextChild with
      | some i =>
        cases ready with
        | false => exact Mirror.ret (two _ _ rfl hr)
        | true =>
          refine Mirror.bind (Mirror.tryResult (Mirror.getChild hμ _ _)) fun r _ => ?_
          cases r with
          | ok c =>
            refine Mirror.ret (two _ _ rfl ?_)
            intro g hg
            rw [List.mem_singleton] at hg
            subst hg
            intro p hp
            cases hp
          | error e => exact Mirror.ret (two _ _ rfl hr)
      | none =>
        cases rest with
        | nil => exact Mirror.pollSetup hμ ready h0
        | cons c cs =>
          refine Mirror.bind (ih hr) ?_
          rintro ⟨p, rest'⟩ hr'
          cases p with
          | ready o woken =>
            cases o with
            | none => exact Mirror.ret (two _ _ rfl (by intro g h; cases h))
            | some item => exact Mirror.ret (two _ _ rfl hr')
          | pending woken waiting => exact Mirror.ret (two _ _ rfl hr')

theorem Mirror.drive (post : Except Err KeyValueData → Prog β) : ∀ (sched : List Bool) (fs : List Frame), (∀ f ∈ fs, f.Fits B) →
    Mirror B (fun _ => True) (Prog.drive post sched fs) (μ.drive post sched fs) := by
  intro sched
  induction sched with
  | nil => intro fs _; exact Mirror.refl _
  | cons r rs ih =>
    intro fs hf
    unfold Prog.drive Machine.drive
    refine Mirror.bind (Mirror.poll hμ r fs hf) ?_
    rintro ⟨p, fs'⟩ hf'
    cases p with
    | ready o woken =>
      cases o with
      | none => exact Mirror.ret trivial
      | some item =>
        refine Mirror.bind (Mirror.refl _) fun x _ => ?_
        exact Mirror.bind (ih fs' hf') fun _ _ => Mirror.ret trivial
    | pending woken waiting => exact ih fs' hf'

theorem Mirror.traverse (conf : TraverseConfig) :
    Mirror B (fun fs => ∀ f ∈ fs, Frame.Fits B f) (Prog.traverse conf) (μ.traverse conf) := by
  unfold Prog.traverse Machine.traverse
  refine Mirror.bind (Mirror.getRoot hμ false) fun r _ => ?_
  cases r with
  | none => exact .throw _
  | some root =>
    refine Mirror.ret ?_
    intro g hg
    rw [List.mem_singleton] at hg
    subst hg
    intro p hp
    cases hp

theorem Mirror.traverseSession (b : TraverseConfigBuilder) (sched : List Bool) :
    Mirror B (fun _ => True) (Prog.traverseSession b sched) (μ.traverseSession b sched) := by
  unfold Prog.traverseSession Machine.traverseSession Prog.collect
  cases b.build with
  | error e => exact .throw _
  | ok conf =>
    have assoc : ∀ {α β γ : Type} (p : Prog α) (f : α → Prog β) (g : β → Prog γ),
        ((p >>= f) >>= g) = (p >>= fun a => f a >>= g) := by
      intro α β γ p f g
      show Prog.bind (Prog.bind p f) g = Prog.bind p _
      induction p with
      | pure a => rfl
      | throw e => rfl
      | step x k ih => exact congrArg (Prog.step x) (funext ih)
    simp only []
    rw [assoc]
    refine Mirror.bind (Mirror.traverse hμ _) fun fs hf => ?_
    exact Mirror.bind (Mirror.drive hμ _ sched fs hf) fun _ _ => Mirror.refl _

/-! ## Replies -/

/-- Two calls take the same steps and give the same reply, as long as what the steps report fits, unless the
first panics on a node number out of range. -/
inductive Meets (B : Nat) : Prog Reply → Prog Reply → Prop where
  | pure (r : Reply) : Meets B (.pure r) (.pure r)
  | panic (m : String) (q : Prog Reply) (hm : m ∈ offsetPanics) : Meets B (.pure (.error (.panic m))) q
  | step {β : Type} (x : Atom β) (k k' : Except Err β → Prog Reply)
      (h : ∀ r, x.Fits B r → Meets B (k r) (k' r)) : Meets B (.step x k) (.step x k')

omit hμ in
theorem Mirror.replyOf {Q : α → Prop} {p q : Prog α} (h : Mirror B Q p q) (f : α → Reply) :
    Meets B (Prog.replyOf f p) (Prog.replyOf f q) := by
  induction h with
  | pure h => exact .pure _
  | throw e => exact .pure _
  | panic m q hm => exact .panic m _ hm
  | step x k k' _ ih => exact .step x _ _ ih

theorem Meets.exec (c : Cmd) : Meets B (Prog.exec c) (μ.exec c) := by
  cases c with
  | version => exact (Mirror.refl _).replyOf _
  | get k => exact (Mirror.get hμ k).replyOf _
  | put k v => exact (Mirror.put hμ k v).replyOf _
  | putCas k v cas => exact (Mirror.putCompareAndSwap hμ k v cas).replyOf _
  | del k => exact (Mirror.del hμ k).replyOf _
  | delCas k cas => exact (Mirror.delCompareAndSwap hμ k cas).replyOf _
  | createHeader m => exact (Mirror.refl _).replyOf _
  | traverse b sched => exact (Mirror.traverseSession hμ b sched).replyOf _
  | reopen => exact .pure _

end

theorem Machine.has {μ : Machine} (h : 4 ≤ μ.width) : μ.Has μ.room := by
  obtain ⟨w, hw⟩ : ∃ w, μ.width = w + 3 := ⟨μ.width - 3, by omega⟩
  have h1 : μ.room = 2 ^ w := by unfold Machine.room; rw [hw]; rfl
  refine ⟨?_, ?_⟩
  · rw [h1, hw, Nat.pow_add]; omega
  · rw [h1]
    calc 2 = 2 ^ 1 := rfl
      _ ≤ 2 ^ w := Nat.pow_le_pow_right (by omega) (by omega)

/-! ## Running them -/

theorem Meets.run {B : Nat} {p q : Prog Reply} (h : Meets B p q) : ∀ {s : St}, p.Fits B s →
    (∀ m ∈ offsetPanics, (p.run s).1 ≠ .ok (.error (.panic m))) → q.run s = p.run s := by
  induction h with
  | pure r => intro s _ _; rfl
  | panic m q hm => intro s _ hn; exact absurd rfl (hn m hm)
  | step x k k' _ ih =>
    intro s hf hn
    exact ih _ hf.1 hf.2 hn

theorem Meets.next {B : Nat} {p q : Prog Reply} (h : Meets B p q) {s : St} (hf : p.NextFits B s)
    (hn : ∀ m ∈ offsetPanics, p ≠ .pure (.error (.panic m))) :
    (q.next s).2 = (p.next s).2 ∧ Meets B (p.next s).1 (q.next s).1 := by
  cases h with
  | pure r => exact ⟨rfl, .pure r⟩
  | panic m q hm => exact absurd rfl (hn m hm)
  | step x k k' h => exact ⟨rfl, h _ hf⟩

theorem Meets.result {B : Nat} {p q : Prog Reply} (h : Meets B p q) (hn : ∀ m ∈ offsetPanics, p ≠ .pure (.error (.panic m))) :
    q.result = p.result := by
  cases h with
  | pure r => rfl
  | panic m q hm => exact absurd rfl (hn m hm)
  | step x k k' h => rfl

/-- A call that has returned stays as it is. -/
theorem interleave_returned (r : α) (i : Nat) : ∀ (sched : List Nat) (ps : List (Prog α)) (s : St),
    ps[i]? = some (.pure r) → (Prog.interleave sched ps s).1[i]? = some (.pure r) := by
  intro sched
  induction sched with
  | nil => intro ps s h; exact h
  | cons j sched ih =>
    intro ps s h
    unfold Prog.interleave
    cases hj : ps[j]? with
    | none => exact ih ps s h
    | some p =>
      refine ih _ _ ?_
      rw [List.getElem?_set]
      by_cases e : j = i
      · subst e
        rw [h] at hj
        cases hj
        have : j < ps.length := by
          rw [List.getElem?_eq_some_iff] at h; exact h.1
        simp [this, Prog.next]
      · simp [e, h]

theorem interleave_meets {B : Nat} : ∀ (sched : List Nat) (ps qs : List (Prog Reply)) (s : St),
    List.Forall₂ (Meets B) ps qs → Prog.AllFit B sched ps s →
    (∀ m ∈ offsetPanics, .pure (.error (.panic m)) ∉ (Prog.interleave sched ps s).1) →
    (Prog.interleave sched qs s).2 = (Prog.interleave sched ps s).2 ∧
    (Prog.interleave sched qs s).1.map Prog.result = (Prog.interleave sched ps s).1.map Prog.result := by
  intro sched
  induction sched with
  | nil =>
    intro ps qs s h hf hn
    clear hf
    refine ⟨rfl, ?_⟩
    show qs.map Prog.result = ps.map Prog.result
    replace hn : ∀ m ∈ offsetPanics, Prog.pure (.error (.panic m)) ∉ ps := hn
    induction h with
    | nil => rfl
    | cons h _ ih =>
      rw [List.map_cons, List.map_cons, ih (fun m hm h => hn m hm (List.mem_cons_of_mem _ h)),
        h.result (fun m hm e => hn m hm (e ▸ List.mem_cons_self ..))]
  | cons i sched ih =>
    intro ps qs s h hf hn
    have hlen := h.length_eq
    cases hi : ps[i]? with
    | none =>
      have hq : qs[i]? = none := by
        rw [List.getElem?_eq_none_iff] at hi ⊢; omega
      simp only [Prog.AllFit, hi] at hf
      simp only [Prog.interleave, hi, hq] at hn ⊢
      exact ih ps qs s h hf hn
    | some p =>
      have hil : i < ps.length := by rw [List.getElem?_eq_some_iff] at hi; exact hi.1
      obtain ⟨q, hq⟩ : ∃ q, qs[i]? = some q := ⟨qs[i]'(by omega), List.getElem?_eq_getElem _⟩
      simp only [Prog.AllFit, hi] at hf
      simp only [Prog.interleave, hi, hq] at hn ⊢
      have hpq : Meets B p q := by
        have := List.Forall₂.get h hil (by omega)
        rw [List.getElem?_eq_some_iff] at hi hq
        obtain ⟨_, rfl⟩ := hi
        obtain ⟨_, rfl⟩ := hq
        exact this
      have hp : ∀ m ∈ offsetPanics, p ≠ .pure (.error (.panic m)) := by
        rintro m hm rfl
        refine hn m hm ?_
        have := interleave_returned (Reply.error (.panic m)) i sched
          (ps.set i (Prog.next (.pure (.error (.panic m))) s).1) (Prog.next (.pure (Reply.error (.panic m))) s).2 (by
            rw [List.getElem?_set]; simp [hil, Prog.next])
        exact List.mem_of_getElem? this
      obtain ⟨h1, h2⟩ := hpq.next hf.1 hp
      rw [h1]
      refine ih _ _ _ ?_ hf.2 hn
      have hset : ∀ (as bs : List (Prog Reply)) (a b : Prog Reply) (n : Nat), List.Forall₂ (Meets B) as bs → Meets B a b →
          List.Forall₂ (Meets B) (as.set n a) (bs.set n b) := by
        intro as bs a b n hab
        induction hab generalizing n with
        | nil => intro _; exact .nil
        | cons h t ih =>
          intro hx
          cases n with
          | zero => exact .cons hx t
          | succ n => exact .cons h (ih n hx)
      exact hset _ _ _ _ i h h2

theorem St.Roomy.fits {B : Nat} {s : St} (h : s.Roomy B) : ∀ {β : Type} (x : Atom β), x.Fits B (x.run s).1 := by
  intro β x
  induction x with
  | readNode a =>
    show match (Hyperbee.readNode a s).1 with
      | .ok n => n.keys.length < B ∧ n.children.length < B
      | .error _ => True
    unfold Hyperbee.readNode
    cases hn : s.heap[a]? with
    | none => trivial
    | some n => exact h.nodes n (List.mem_of_getElem? hn)
  | cacheGet q =>
    show match (Except.ok (s.cache q) : Except Err (Option BlockEntry)) with
      | .ok (some e) => e.nodes.length < B
      | _ => True
    cases hc : s.cache q with
    | none => trivial
    | some e => exact h.cached q e hc
  | coreFetch q =>
    show match (getFromCore q s).1 with
      | .ok (some e) => e.nodes.length < B
      | _ => True
    cases hc : getFromCore q s with
    | mk r t =>
      cases r with
      | error e => trivial
      | ok o =>
        cases o with
        | none => trivial
        | some e => exact h.fetched q e t hc
  | descentFuel => exact h.core
  | under a m x ih => exact ih
  | _ => trivial

end Hyperbee
