import Verif.SpecSteps
import Verif.Proof.Async
import Verif.Proof.CostWrite
/-!
# Counting steps

How many steps the futures of `Model/Async` take when they are polled to the end.  `TakesAt s b P p`:
from `s`, `p` takes at most `b` steps, and its result, if it has one, satisfies `P`.
-/

namespace Hyperbee

/-- From `s`, at most `b` steps, and `P` of the result. -/
def TakesAt (s : St) (b : Nat) (P : α → Prop) (p : Prog α) : Prop :=
  p.steps s ≤ b ∧ ∀ a, (p.run s).1 = .ok a → P a

/-- The same from every state. -/
def Takes (b : Nat) (P : α → Prop) (p : Prog α) : Prop := ∀ s, TakesAt s b P p

/-- Nothing known of the result. -/
def Anything (_ : α) : Prop := True

theorem Prog.steps_bind (p : Prog α) (f : α → Prog β) (s : St) :
    (p >>= f).steps s = p.steps s + match (p.run s).1 with
      | .ok a => (f a).steps (p.run s).2
      | .error _ => 0 := by
  show (Prog.bind p f).steps s = _
  induction p generalizing s with
  | pure a => simp [Prog.bind, Prog.steps, Prog.run]
  | throw e => simp [Prog.bind, Prog.steps, Prog.run]
  | step x k ih =>
    show (Prog.bind (k (x.run s).1) f).steps (x.run s).2 + 1 = _
    rw [ih]
    show _ = ((k (x.run s).1).steps (x.run s).2 + 1) + _
    simp only [Prog.run]
    omega

theorem TakesAt.mono {s : St} {b c : Nat} {P Q : α → Prop} {p : Prog α} (h : TakesAt s b P p) (hbc : b ≤ c)
    (hpq : ∀ a, P a → Q a) : TakesAt s c Q p := ⟨Nat.le_trans h.1 hbc, fun a ha => hpq a (h.2 a ha)⟩

theorem TakesAt.le {s : St} {b c : Nat} {P : α → Prop} {p : Prog α} (h : TakesAt s b P p) (hbc : b ≤ c) :
    TakesAt s c P p := h.mono hbc fun _ h => h

theorem Takes.mono {b c : Nat} {P Q : α → Prop} {p : Prog α} (h : Takes b P p) (hbc : b ≤ c)
    (hpq : ∀ a, P a → Q a) : Takes c Q p := fun s => (h s).mono hbc hpq

theorem Takes.le {b c : Nat} {P : α → Prop} {p : Prog α} (h : Takes b P p) (hbc : b ≤ c) : Takes c P p :=
  h.mono hbc fun _ h => h

theorem TakesAt.bind {s : St} {a b : Nat} {P : α → Prop} {Q : β → Prop} {p : Prog α} {f : α → Prog β}
    (hp : TakesAt s a P p) (hf : ∀ x, P x → Takes b Q (f x)) : TakesAt s (a + b) Q (p >>= f) := by
  refine ⟨?_, ?_⟩
  · rw [Prog.steps_bind]
    have h1 := hp.1
    cases hr : (p.run s).1 with
    | error e => simp only; omega
    | ok x =>
      have := (hf x (hp.2 x hr) (p.run s).2).1
      simp only
      omega
  · intro y hy
    rw [Prog.run_bind, bind_run] at hy
    cases hr : p.run s with
    | mk r s' =>
      rw [hr] at hy
      cases r with
      | error e => cases hy
      | ok x => exact (hf x (hp.2 x (by rw [hr])) s').2 y hy

theorem Takes.bind {a b : Nat} {P : α → Prop} {Q : β → Prop} {p : Prog α} {f : α → Prog β}
    (hp : Takes a P p) (hf : ∀ x, P x → Takes b Q (f x)) : Takes (a + b) Q (p >>= f) :=
  fun s => (hp s).bind hf

/-- Going on from a run that is known. -/
theorem TakesAt.bind_ok {s s' : St} {a b : Nat} {Q : β → Prop} {p : Prog α} {f : α → Prog β} {m : M α} {x : α}
    (hd : Does p m) (hm : m s = (.ok x, s')) (hp : p.steps s ≤ a) (hf : TakesAt s' b Q (f x)) :
    TakesAt s (a + b) Q (p >>= f) := by
  have hr : p.run s = (.ok x, s') := by rw [show p.run = m from hd]; exact hm
  refine ⟨?_, ?_⟩
  · rw [Prog.steps_bind, hr]
    have := hf.1
    simp only
    omega
  · intro y hy
    rw [Prog.run_bind, Hyperbee.bind_ok hr] at hy
    exact hf.2 y hy

theorem Takes.pure {a : α} {P : α → Prop} (h : P a) : Takes 0 P (Pure.pure a : Prog α) :=
  fun s => ⟨Nat.le_refl _, fun b hb => by cases hb; exact h⟩

theorem Takes.throw {P : α → Prop} (e : Err) : Takes 0 P (Prog.throw e : Prog α) :=
  fun s => ⟨Nat.le_refl _, fun b hb => by cases hb⟩

theorem Takes.lift (x : Atom β) : Takes 1 Anything (Prog.lift x) := by
  intro s
  refine ⟨?_, fun _ _ => trivial⟩
  show (match (x.run s).1 with
      | Except.ok b => Prog.pure b
      | Except.error e => Prog.throw e : Prog β).steps (x.run s).2 + 1 ≤ 1
  cases (x.run s).1 <;> exact Nat.le_refl _

theorem Takes.orPanic (site : String) (o : Option α) : Takes 0 (fun a => o = some a) (Prog.orPanic site o) := by
  cases o with
  | none => exact Takes.throw _
  | some a => exact Takes.pure rfl

theorem Takes.orPanic_any (site : String) (o : Option α) : Takes 0 Anything (Prog.orPanic site o) :=
  (Takes.orPanic site o).mono (Nat.le_refl _) fun _ _ => trivial

theorem Takes.readNode (a : Nat) : Takes 1 Anything (Prog.readNode a) := Takes.lift _
theorem Takes.edit (m : Mode) (a : Nat) (f : Node → Except Err (β × Node)) :
    Takes 1 Anything (Prog.edit m a f) := Takes.lift _
theorem Takes.alloc (n : Node) : Takes 1 Anything (Prog.alloc n) := Takes.lift _
theorem Takes.version : Takes 1 Anything Prog.version := Takes.lift _
theorem Takes.descentFuel : Takes 1 Anything Prog.descentFuel := Takes.lift _
theorem Takes.coreAppend (b : Bytes) : Takes 1 Anything (Prog.coreAppend b) := Takes.lift _

theorem Takes.under {b : Nat} {P : α → Prop} {p : Prog α} (a : Nat) (m : Mode) (h : Takes b P p) :
    Takes b P (Prog.under a m p) := by
  have hs : ∀ s, (Prog.under a m p).steps s = p.steps s := by
    clear h
    induction p with
    | pure b => intro s; rfl
    | throw e => intro s; rfl
    | step x k ih => intro s; exact congrArg (· + 1) (ih _ _)
  have hr : (Prog.under a m p).run = p.run := Does.under a m rfl
  intro s
  exact ⟨by rw [hs]; exact (h s).1, by rw [hr]; exact (h s).2⟩

theorem Takes.catchExists {b : Nat} {P : Nat → Prop} {p : Prog Nat} (h : Takes b P p) :
    Takes b Anything (Prog.catchExists p) := by
  have hs : ∀ s, (Prog.catchExists p).steps s = p.steps s := by
    clear h
    induction p with
    | pure b => intro s; rfl
    | throw e => intro s; cases e <;> rfl
    | step x k ih => intro s; exact congrArg (· + 1) (ih _ _)
  exact fun s => ⟨by rw [hs]; exact (h s).1, fun _ _ => trivial⟩

theorem Takes.cases_any {b : Nat} {P : β → Prop} {f : α → Prog β} {p : Prog α} {a : Nat}
    (hp : Takes a Anything p) (hf : ∀ x, Takes b P (f x)) : Takes (a + b) P (p >>= f) :=
  hp.bind fun x _ => hf x

/-! ## Reading -/

theorem takes_blocksGet (q : Nat) : Takes 3 Anything (Prog.blocksGet q) := by
  unfold Prog.blocksGet
  refine (Takes.lift _).cases_any (b := 2) fun x => ?_
  cases x with
  | some e => exact (Takes.pure trivial).le (by omega)
  | none =>
    refine (Takes.lift _).cases_any (b := 1) fun x => ?_
    cases x with
    | none => exact (Takes.throw _).le (by omega)
    | some e => exact (Takes.lift _).cases_any (b := 0) fun _ => Takes.pure trivial

theorem takes_getChild (a i : Nat) : Takes 4 Anything (Prog.getChild a i) := by
  unfold Prog.getChild
  refine (Takes.readNode a).cases_any (b := 3) fun n => Takes.under _ _ ?_
  refine (Takes.orPanic_any _ _).cases_any (a := 0) (b := 3) fun c => ?_
  refine (takes_blocksGet _).cases_any (a := 3) (b := 0) fun e => ?_
  exact Takes.orPanic_any _ _

theorem takes_isLeaf (a : Nat) : Takes 1 Anything (Prog.isLeaf a) := by
  unfold Prog.isLeaf
  exact (Takes.readNode a).cases_any (b := 0) fun n => Takes.pure trivial

theorem takes_getKeyValue (a i : Nat) : Takes 7 Anything (Prog.getKeyValue a i) := by
  unfold Prog.getKeyValue
  refine (Takes.readNode a).cases_any (b := 6) fun n => Takes.under _ _ ?_
  refine (Takes.orPanic_any _ _).cases_any (a := 0) (b := 6) fun c => ?_
  refine (takes_blocksGet _).cases_any (a := 3) (b := 3) fun e => ?_
  exact (takes_blocksGet _).cases_any (a := 3) (b := 0) fun e => Takes.pure trivial

theorem takes_searchLoop (a : Nat) (key : LimitValue) : ∀ (b fuel low high : Nat), high + 1 - low < 2 ^ b →
    Takes (7 * b) Anything (Prog.searchLoop a key fuel low high)
  | b, 0, low, high, _ => (Takes.throw _).le (Nat.zero_le _)
  | b, fuel + 1, low, high, h => by
    unfold Prog.searchLoop
    split
    · rename_i hle
      cases b with
      | zero => simp at h; omega
      | succ b =>
        rw [Nat.pow_succ] at h
        have hmid : (high - low) >>> 1 = (high - low) / 2 := by rw [Nat.shiftRight_eq_div_pow]
        refine ((takes_getKeyValue a _).cases_any (b := 7 * b) fun kv => ?_).le (by omega)
        split
        · exact (Takes.pure trivial).le (Nat.zero_le _)
        · split
          · split
            · exact (Takes.pure trivial).le (Nat.zero_le _)
            · exact takes_searchLoop a key b fuel _ _ (by omega)
          · exact takes_searchLoop a key b fuel _ _ (by omega)
    · exact (Takes.pure trivial).le (Nat.zero_le _)

theorem getIndexOfKey_steps {s : St} {a : Nat} {n : Node} (hn : s.heap[a]? = some n) (h8 : n.keys.length ≤ 8)
    (key : LimitValue) : (Prog.getIndexOfKey a key).steps s ≤ 29 := by
  have : TakesAt s (1 + 28) Anything (Prog.getIndexOfKey a key) := by
    unfold Prog.getIndexOfKey
    refine TakesAt.bind_ok (Does.readNode a) (readNode_some hn) (Takes.readNode a s).1 ?_
    dsimp only
    split
    · exact ((Takes.pure trivial).le (by omega)) s
    · exact takes_searchLoop a key 4 _ 0 _ (by omega) s
  exact this.1

/-- The descent takes few steps on each level. -/
theorem nearestLoop_steps (key : LimitValue) : ∀ (H : Nat) (root : Bool) (fuel : Nat) (t : T) (s : St) (a : Nat)
    (path : NodePath), SWF s → Rep (nodeAt s.core) t → Coh s (· ∈ t.refs) → GoodN root H t →
    Srt s.core t.flat → (∀ q ∈ t.flat, ∃ b, blockAt s.core q = some b) → addrOf s t.ref = some a →
    TakesAt s (34 * H + 30) Anything (Prog.nearestLoop key fuel a path) := by
  intro H
  induction H with
  | zero =>
    intro root fuel t s a path hw hrep hcoh hg hsrt hdef haddr
    cases fuel with
    | zero => exact ((Takes.throw _).le (Nat.zero_le _)) s
    | succ fuel =>
      have h8 := goodN_keys hg
      have hn : s.heap[a]? = some t.node := by rw [hcoh _ (T.ref_mem_refs t) a haddr]; exact hrep.node
      have hlf := hg.shape
      obtain ⟨r, ks, ts⟩ := t
      simp only [Shape] at hlf
      subst hlf
      rw [T.flat, flatL_nil] at hsrt hdef
      obtain ⟨⟨m, i⟩, s1, h1, e1, hp⟩ := getIndexOfKey_run hw hn key hsrt hdef
      unfold Prog.nearestLoop
      refine (TakesAt.bind_ok (b := 1) (does_getIndexOfKey a key) h1 (getIndexOfKey_steps hn h8 key) ?_).le (by omega)
      dsimp only
      refine (TakesAt.bind_ok (b := 0) (does_isLeaf a) (isLeaf_run (e1.get hn)) (takes_isLeaf a s1).1 ?_)
      simp only [T.node, T.kids, List.map_nil, List.length_nil, beq_self_eq_true, Bool.or_true, if_true]
      exact Takes.pure trivial s1
  | succ H ih =>
    intro root fuel t s a path hw hrep hcoh hg hsrt hdef haddr
    cases fuel with
    | zero => exact ((Takes.throw _).le (Nat.zero_le _)) s
    | succ fuel =>
      have h8 := goodN_keys hg
      have hn : s.heap[a]? = some t.node := by rw [hcoh _ (T.ref_mem_refs t) a haddr]; exact hrep.node
      obtain ⟨r, ks, ts⟩ := t
      obtain ⟨hlen, hfill, hkids⟩ := hg
      rw [T.flat] at hsrt hdef
      have hks := keys_sublist ks ts
      obtain ⟨⟨m, i⟩, s1, h1, e1, hp⟩ := getIndexOfKey_run hw hn key
        (List.Pairwise.sublist hks hsrt) (fun q hq => hdef q (hks.subset hq))
      unfold Prog.nearestLoop
      refine (TakesAt.bind_ok (b := 34 * H + 35) (does_getIndexOfKey a key) h1 (getIndexOfKey_steps hn h8 key) ?_).le (by omega)
      dsimp only
      refine (TakesAt.bind_ok (b := 34 * H + 34) (does_isLeaf a) (isLeaf_run (e1.get hn)) (takes_isLeaf a s1).1 ?_).le
        (by omega)
      cases m with
      | some q =>
        simp only [Option.isSome_some, Bool.true_or, if_true]
        exact ((Takes.pure trivial).le (Nat.zero_le _)) s1
      | none =>
        simp only [SearchPost] at hp
        obtain ⟨hile, _, _⟩ := hp
        have hleaf : (((T.mk r ks ts).node.children).length == 0) = false := by
          simp [T.node, T.kids]; intro h; simp [h] at hlen
        rw [hleaf]
        simp only [Option.isSome_none, Bool.or_false, Bool.false_eq_true, if_false]
        have hile : i ≤ ks.length := hile
        have hits : i < ts.length := by omega
        have hmem : ts[i] ∈ ts := List.getElem_mem hits
        have hrepc := hrep.kids _ hmem
        obtain ⟨m, hm⟩ := hrepc.refs_some _ (T.ref_mem_refs _)
        obtain ⟨a2, s2, h2, e2, ha2⟩ := getChild_run e1.wf (e1.get hn) (i := i) (r := (ts[i]).ref)
          (by simp [T.node, T.kids, List.getElem?_eq_getElem hits]) (m := m) (by rw [e1.core]; exact hm)
        refine (TakesAt.bind_ok (b := 34 * H + 30) (does_getChild a i) h2 (takes_getChild a i s1).1 ?_).le (by omega)
        have e12 := e1.trans e2
        have hksplit : ks = ks.take i ++ ks.drop i := (List.take_append_drop i ks).symm
        have htsplit : ts = ts.take i ++ ts[i] :: ts.drop (i + 1) := by
          rw [List.getElem_cons_drop, List.take_append_drop]
        have hA : (ts.take i).length = (ks.take i).length := by simp; omega
        have hB : (ts.drop (i + 1)).length = (ks.drop i).length := by simp; omega
        have hflat : flatL ks ts = preF (ks.take i) (ts.take i) ++ (ts[i]).flat
            ++ postF (ks.drop i) (ts.drop (i + 1)) := by
          conv => lhs; rw [hksplit, htsplit]
          exact flatL_hole hA hB _
        rw [hflat] at hsrt hdef
        have hs1 := List.pairwise_append.mp hsrt
        have hs2 := List.pairwise_append.mp hs1.1
        have hcoh2 : Coh s2 (· ∈ (ts[i]).refs) :=
          (e12.coh hw hcoh).mono fun r' hr' => by
            simp only [T.refs, List.mem_cons]
            exact .inr (mem_refsL.mpr ⟨_, hmem, hr'⟩)
        exact ih false fuel ts[i] s2 a2 ((a, i) :: path) e2.wf (by rw [e12.core]; exact hrepc) hcoh2
          (hkids _ hmem) (by rw [e12.core]; exact hs2.2.1)
          (by rw [e12.core]; exact fun q hq => hdef q (by simp [hq])) ha2

theorem nearestNode_steps {s : St} {h : Nat} {root : Bool} {t : T} {a : Nat} (key : LimitValue) (v : Vw s h t)
    (hg : GoodN root h t) (hw : SWF s) (ha : addrOf s t.ref = some a) :
    (Prog.nearestNode a key).steps s ≤ 34 * h + 31 := by
  have := (TakesAt.bind_ok (f := fun fuel => Prog.nearestLoop key fuel a []) Does.descentFuel
    (show Hyperbee.descentFuel s = (.ok (stepBound s.core), s) from rfl) (Takes.descentFuel s).1
    (nearestLoop_steps key h root (stepBound s.core) t s a [] hw v.rep v.coh hg v.srt v.dfd ha)).1
  unfold Prog.nearestNode
  omega

theorem takes_createHeader (m : Option Metadata) : Takes 2 Anything (Prog.createHeader m) := by
  unfold Prog.createHeader
  refine Takes.version.cases_any (b := 1) fun n => ?_
  split
  · exact (Takes.throw _).le (by omega)
  · exact Takes.coreAppend _

theorem takes_getRoot (b : Bool) : Takes 4 Anything (Prog.getRoot b) := by
  unfold Prog.getRoot
  refine Takes.version.cases_any (b := 3) fun n => ?_
  split
  · split
    · exact (Takes.bind (takes_createHeader none).catchExists fun _ _ => Takes.pure trivial).le (by omega)
    · exact (Takes.pure trivial).le (by omega)
  · refine (takes_blocksGet _).cases_any (b := 0) fun e => ?_
    exact (Takes.orPanic_any _ _).cases_any (b := 0) fun e => Takes.pure trivial

/-! ## Writing -/

theorem takes_setChild (a i : Nat) (c : Child) : Takes 1 Anything (Prog.setChild a i c) := Takes.lift _
theorem takes_nodeInsert (a k : Nat) (cs : List Child) (i j : Nat) : Takes 1 Anything (Prog.nodeInsert a k cs i j) :=
  Takes.lift _

theorem takes_propagate : ∀ (path : NodePath) (ch : Changes) (c : Child),
    Takes path.length (fun ch' : Changes => ch'.nodes.length ≤ ch.nodes.length + path.length) (Prog.propagate ch path c)
  | [], ch, c => Takes.pure (by simp)
  | (a, i) :: path, ch, c => by
    unfold Prog.propagate
    refine ((takes_setChild a i c).cases_any (b := path.length) fun _ => ?_).le (by simp; omega)
    refine (takes_propagate path (ch.addNode a).1 _).mono (Nat.le_refl _) fun ch' h => ?_
    simp only [Changes.addNode, List.length_append, List.length_cons, List.length_nil] at h ⊢
    omega

theorem takes_split (a : Nat) : Takes 3 Anything (Prog.split a) := by
  unfold Prog.split
  refine (Takes.edit _ _ _).cases_any (b := 2) fun x => ?_
  obtain ⟨l, m, r⟩ := x
  refine (Takes.alloc _).cases_any (b := 1) fun x => ?_
  exact (Takes.alloc _).cases_any (b := 0) fun x => Takes.pure trivial

theorem takes_putLoop (m : Bool) : ∀ (path : NodePath) (ch : Changes) (k : Nat) (cs : List Child),
    Takes (5 * path.length + 1) (fun ch' : Changes => ch'.nodes.length ≤ ch.nodes.length + 2 * path.length + 1)
      (Prog.putLoop m path ch k cs)
  | [], ch, k, cs => by
    unfold Prog.putLoop
    exact (Takes.alloc _).cases_any (b := 0) fun x => Takes.pure (by simp [Changes.addNode])
  | (a, i) :: path, ch, k, cs => by
    unfold Prog.putLoop
    refine ((Takes.readNode a).cases_any (b := 5 * path.length + 5) fun n => ?_).le (by simp; omega)
    dsimp only
    split
    · refine ((takes_nodeInsert _ _ _ _ _).cases_any (b := path.length) fun _ => ?_).le (by omega)
      split
      · exact (Takes.pure (by simp [Changes.addNode])).le (by omega)
      · refine (takes_propagate path _ _).mono (Nat.le_refl _) fun ch' h => ?_
        simp only [Changes.addNode, List.length_append, List.length_cons, List.length_nil] at h ⊢
        omega
    · refine ((takes_nodeInsert _ _ _ _ _).cases_any (b := 5 * path.length + 4) fun _ => ?_).le (by omega)
      refine ((takes_split _).cases_any (b := 5 * path.length + 1) fun x => ?_).le (by omega)
      obtain ⟨l, mk, r⟩ := x
      refine (takes_putLoop m path _ _ _).mono (Nat.le_refl _) fun ch' h => ?_
      simp only [Changes.addNode, List.length_append, List.length_cons, List.length_nil] at h ⊢
      omega

theorem takes_takeChildren (a q : Nat) : Takes 1 Anything (Prog.takeChildrenWithSeq a q) := by
  unfold Prog.takeChildrenWithSeq
  exact (Takes.readNode a).cases_any (b := 0) fun n => Takes.pure trivial

theorem takes_reorderLoop (q : Nat) (ns : List Addr) : ∀ (fuel : Nat) (st : List (Addr × Nat)) (out : List Addr),
    Takes (3 * fuel) (fun l : List Addr => l.length ≤ out.length + fuel) (Prog.reorderLoop q ns fuel st out)
  | fuel, [], out => by
    unfold Prog.reorderLoop
    exact (Takes.pure (by omega)).le (Nat.zero_le _)
  | 0, _ :: _, out => by
    unfold Prog.reorderLoop
    exact Takes.throw _
  | fuel + 1, (a, i) :: st, out => by
    unfold Prog.reorderLoop
    refine ((Takes.readNode a).cases_any (b := 3 * fuel + 2) fun n => ?_).le (by omega)
    refine ((Takes.orPanic_any _ _).cases_any (b := 3 * fuel + 2) fun c => ?_).le (by omega)
    refine ((Takes.edit _ _ _).cases_any (b := 3 * fuel + 1) fun _ => ?_).le (by omega)
    refine ((Takes.orPanic_any _ _).cases_any (b := 3 * fuel + 1) fun c => ?_).le (by omega)
    refine ((takes_takeChildren _ _).cases_any (b := 3 * fuel) fun more => ?_).le (by omega)
    refine (takes_reorderLoop q ns fuel _ _).mono (Nat.le_refl _) fun l h => ?_
    simp only [List.length_append, List.length_cons, List.length_nil] at h
    omega

theorem takes_readNodes : ∀ l : List Addr, Takes l.length Anything (Prog.readNodes l)
  | [] => Takes.pure trivial
  | a :: as => by
    unfold Prog.readNodes
    refine ((Takes.readNode a).cases_any (b := as.length) fun n => ?_).le (by simp; omega)
    exact (takes_readNodes as).cases_any (b := 0) fun _ => Takes.pure trivial

theorem takes_addChanges (ch : Changes) : Takes (4 * ch.nodes.length + 3) Anything (Prog.addChanges ch) := by
  unfold Prog.addChanges
  have h1 : Takes (3 * ch.nodes.length + 1) (fun l : List Addr => l.length ≤ ch.nodes.length + 1)
      (Prog.reorderNodes ch.seq ch.nodes) := by
    unfold Prog.reorderNodes
    refine ((Takes.orPanic_any _ _).cases_any (b := 3 * ch.nodes.length + 1) fun r => ?_).le (by omega)
    refine ((takes_takeChildren _ _).cases_any (b := 3 * ch.nodes.length) fun st => ?_).le (by omega)
    exact (takes_reorderLoop _ _ _ _ _).mono (Nat.le_refl _) fun l h => by simp at h; omega
  refine (h1.bind (b := ch.nodes.length + 2) fun l hl => ?_).le (by omega)
  exact ((takes_readNodes l).cases_any (b := 1) fun ns => Takes.coreAppend _).le (by omega)

/-- How many nodes are to be written. -/
def Writes (n : Nat) : Prepared α → Prop
  | .done _ => True
  | .commit ch _ => ch.nodes.length ≤ n

theorem takes_commit {n : Nat} {p : Prepared α} (h : Writes n p) : Takes (4 * n + 3) Anything (Prog.commitPrepared p) := by
  cases p with
  | done a => exact (Takes.pure trivial).le (Nat.zero_le _)
  | commit ch a =>
    have h : ch.nodes.length ≤ n := h
    exact ((takes_addChanges ch).cases_any (b := 0) fun _ => Takes.pure trivial).le (by omega)

/-! ## Repairing -/

theorem takes_getDonorIndex (sd : Side) (a i : Nat) : Takes 1 Anything (Prog.Side.getDonorIndex sd a i) := by
  unfold Prog.Side.getDonorIndex
  split
  · exact (Takes.pure trivial).le (by omega)
  · exact (Takes.readNode a).cases_any (b := 0) fun _ => Takes.pure trivial

theorem takes_getDonorKey (sd : Side) (a : Nat) : Takes 1 Anything (Prog.Side.getDonorKey sd a) := by
  cases sd <;> exact Takes.lift _

theorem takes_getDonorChild (sd : Side) (a : Nat) : Takes 2 Anything (Prog.Side.getDonorChild sd a) := by
  unfold Prog.Side.getDonorChild
  refine (takes_isLeaf a).cases_any (b := 1) fun l => ?_
  split
  · exact (Takes.pure trivial).le (by omega)
  · cases sd <;> exact Takes.lift _

theorem takes_insertDonations (sd : Side) (a k : Nat) (c : Option Child) :
    Takes 2 Anything (Prog.Side.insertDonations sd a k c) := by
  unfold Prog.Side.insertDonations
  cases sd <;> refine (Takes.edit _ _ _).cases_any (b := 1) fun _ => ?_ <;> cases c <;>
    first | exact (Takes.pure trivial).le (by omega) | exact Takes.lift _

theorem takes_rotate (sd : Side) (f i d j e : Nat) (ch : Changes) :
    Takes 8 (fun ch' : Changes => ch'.nodes.length = ch.nodes.length + 2) (Prog.Side.rotate sd f i d j e ch) := by
  unfold Prog.Side.rotate
  refine (takes_getDonorKey _ _).cases_any (b := 7) fun k => ?_
  refine (takes_getDonorChild _ _).cases_any (b := 5) fun c => ?_
  refine (Takes.lift _).cases_any (b := 4) fun k' => ?_
  refine (takes_insertDonations _ _ _ _).cases_any (b := 2) fun _ => ?_
  dsimp only
  refine (takes_setChild _ _ _).cases_any (b := 1) fun _ => ?_
  refine (takes_setChild _ _ _).cases_any (b := 0) fun _ => ?_
  exact Takes.pure (by simp [Changes.addNode])

theorem takes_maybeRotate (sd : Side) (f i d o : Nat) (ch : Changes) :
    Takes 14 (fun r : Option Changes => ∀ ch', r = some ch' → ch'.nodes.length ≤ ch.nodes.length + 2)
      (Prog.Side.maybeRotate sd f i d o ch) := by
  unfold Prog.Side.maybeRotate
  have h1 : Takes 6 Anything (Prog.Side.canRotate sd f i o) := by
    unfold Prog.Side.canRotate
    refine (takes_getDonorIndex _ _ _).cases_any (b := 5) fun x => ?_
    cases x with
    | none => exact (Takes.pure trivial).le (by omega)
    | some j =>
      refine (takes_getChild _ _).cases_any (b := 1) fun c => ?_
      refine (Takes.readNode _).cases_any (b := 0) fun n => ?_
      split <;> exact Takes.pure trivial
  refine h1.cases_any (b := 8) fun x => ?_
  cases x with
  | none => exact (Takes.pure (by simp)).le (by omega)
  | some x =>
    obtain ⟨j, e⟩ := x
    refine (takes_rotate sd f i d j e ch).bind (b := 0) fun ch' h => Takes.pure ?_
    intro ch'' he
    cases he
    omega

theorem takes_maybeMerge (sd : Side) (f i d : Nat) (ch : Changes) :
    Takes 14 (fun r : Option Changes => ∀ ch', r = some ch' → ch'.nodes.length ≤ ch.nodes.length + 2)
      (Prog.Side.maybeMerge sd f i d ch) := by
  unfold Prog.Side.maybeMerge
  refine (takes_getDonorIndex _ _ _).cases_any (b := 13) fun x => ?_
  cases x with
  | none => exact (Takes.pure (by simp)).le (by omega)
  | some j =>
    refine (takes_getChild _ _).cases_any (b := 9) fun c => ?_
    dsimp only
    refine (Takes.edit _ _ _).cases_any (b := 8) fun _ => ?_
    refine (Takes.edit _ _ _).cases_any (b := 7) fun _ => ?_
    refine (Takes.readNode _).cases_any (b := 6) fun _ => ?_
    refine (Takes.edit _ _ _).cases_any (b := 5) fun _ => ?_
    refine (Takes.edit _ _ _).cases_any (b := 4) fun _ => ?_
    refine (Takes.readNode _).cases_any (b := 3) fun n => ?_
    have hm : ∀ l r k, Takes 2 Anything (Prog.Side.moveChildren l r k) := by
      intro l r k
      unfold Prog.Side.moveChildren
      exact (Takes.lift _).cases_any (b := 1) fun _ => Takes.under _ _ (Takes.lift _)
    refine (hm _ _ _).cases_any (b := 1) fun _ => ?_
    refine (Takes.edit _ _ _).cases_any (b := 0) fun _ => ?_
    exact Takes.pure (by intro ch' h; cases h; simp [Changes.addNode])

theorem takes_repairOne (f i d o : Nat) (ch : Changes) :
    Takes 56 (fun ch' : Changes => ch'.nodes.length ≤ ch.nodes.length + 2) (Prog.repairOne f i d o ch) := by
  unfold Prog.repairOne
  refine (takes_maybeRotate _ _ _ _ _ _).bind (b := 42) fun x hx => ?_
  cases x with
  | some ch' => exact (Takes.pure (P := fun c : Changes => c.nodes.length ≤ ch.nodes.length + 2) (hx _ rfl)).le (by omega)
  | none =>
  refine (takes_maybeRotate _ _ _ _ _ _).bind (b := 28) fun x hx => ?_
  cases x with
  | some ch' => exact (Takes.pure (P := fun c : Changes => c.nodes.length ≤ ch.nodes.length + 2) (hx _ rfl)).le (by omega)
  | none =>
  refine (takes_maybeMerge _ _ _ _ _).bind (b := 14) fun x hx => ?_
  cases x with
  | some ch' => exact (Takes.pure (P := fun c : Changes => c.nodes.length ≤ ch.nodes.length + 2) (hx _ rfl)).le (by omega)
  | none =>
  refine (takes_maybeMerge _ _ _ _ _).bind (b := 0) fun x hx => ?_
  cases x with
  | some ch' => exact Takes.pure (hx _ rfl)
  | none => exact Takes.throw _

theorem takes_rootIsEmpty (path : NodePath) (a : Nat) : Takes 2 Anything (Prog.rootIsEmpty path a) := by
  unfold Prog.rootIsEmpty
  split
  · refine (Takes.readNode a).cases_any (b := 1) fun n => ?_
    split
    · exact (Takes.readNode a).cases_any (b := 0) fun n => Takes.pure trivial
    · exact (Takes.pure trivial).le (by omega)
  · exact (Takes.pure trivial).le (by omega)

/-- After a repair: how much of the path is left, and how many nodes are to be written when it is gone up. -/
def RepairedBy (m n : Nat) (x : Child × NodePath × Changes) : Prop :=
  x.2.1.length ≤ m ∧ x.2.2.nodes.length + x.2.1.length ≤ n

theorem takes_repairLoop (o : Nat) : ∀ (path : NodePath) (f i d : Nat) (ch : Changes),
    Takes (59 * path.length + 59) (RepairedBy path.length (ch.nodes.length + 3 * path.length + 3))
      (Prog.repairLoop o path f i d ch) := by
  intro path
  induction path with
  | nil =>
    intro f i d ch
    unfold Prog.repairLoop
    refine ((takes_repairOne f i d o ch).bind (b := 3) fun ch' h => ?_)
    refine (takes_rootIsEmpty _ _).cases_any (b := 1) fun e => ?_
    split
    · refine (Takes.readNode _).cases_any (b := 0) fun n => ?_
      exact (Takes.orPanic_any _ _).cases_any (b := 0) fun c => Takes.pure ⟨by simp, by simp; omega⟩
    · exact (Takes.pure ⟨by simp, by simp [Changes.addNode]; omega⟩).le (by omega)
  | cons x path ih =>
    obtain ⟨f', i'⟩ := x
    intro f i d ch
    unfold Prog.repairLoop
    refine ((takes_repairOne f i d o ch).bind (b := 59 * path.length + 62) fun ch' h => ?_).le (by simp; omega)
    refine ((takes_rootIsEmpty _ _).cases_any (b := 59 * path.length + 60) fun e => ?_).le (by omega)
    split
    · refine ((Takes.readNode _).cases_any (b := 0) fun n => ?_).le (by omega)
      exact (Takes.orPanic_any _ _).cases_any (b := 0) fun c => Takes.pure ⟨by simp, by simp; omega⟩
    · dsimp only
      refine ((Takes.readNode _).cases_any (b := 59 * path.length + 59) fun n => ?_).le (by omega)
      split
      · exact (Takes.pure ⟨by simp, by simp [Changes.addNode]; omega⟩).le (by omega)
      · refine (ih f' i' f ch').mono (Nat.le_refl _) fun x hx => ⟨?_, ?_⟩
        · have := hx.1; simp; omega
        · have := hx.2; simp; omega

theorem takes_repair (path : NodePath) (o : Nat) (ch : Changes) :
    Takes (59 * path.length + 4) (RepairedBy path.length (ch.nodes.length + 3 * path.length)) (Prog.repair path o ch) := by
  cases path with
  | nil =>
    unfold Prog.repair
    exact (Takes.throw _).le (by omega)
  | cons x path =>
    obtain ⟨f, i⟩ := x
    unfold Prog.repair
    refine ((takes_getChild _ _).cases_any (b := 59 * path.length + 59) fun d => ?_).le (by simp; omega)
    refine (takes_repairLoop o path f i d ch).mono (Nat.le_refl _) fun x hx => ⟨?_, ?_⟩
    · have := hx.1; simp; omega
    · have := hx.2; simp; omega

/-- The end of a deletion: everything after the key has been taken out. -/
def Prog.delTail (ch : Changes) (path : NodePath) (bottomNode : Addr) : Prog Changes := do
  let bn ← readNode bottomNode
  let (childRef, path, ch) ←
    if path.isEmpty = false ∧ bn.keys.length < minKeys MAX_KEYS then repair path MAX_KEYS ch
    else
      let (ch, c) := ch.addNode bottomNode
      Pure.pure (c, path, ch)
  if path.isEmpty = false then propagate ch path childRef else Pure.pure ch

theorem takes_delTail (ch : Changes) (path : NodePath) (a : Nat) :
    Takes (60 * path.length + 5) (fun ch' : Changes => ch'.nodes.length ≤ ch.nodes.length + 3 * path.length + 1)
      (Prog.delTail ch path a) := by
  unfold Prog.delTail
  refine ((Takes.readNode _).cases_any (b := 60 * path.length + 4) fun n => ?_).le (by omega)
  have hjp : ∀ x : Child × NodePath × Changes, RepairedBy path.length (ch.nodes.length + 3 * path.length + 1) x →
      Takes path.length (fun ch' : Changes => ch'.nodes.length ≤ ch.nodes.length + 3 * path.length + 1)
        (if x.2.1.isEmpty = false then Prog.propagate x.2.2 x.2.1 x.1 else Pure.pure x.2.2) := by
    rintro ⟨c, path', ch'⟩ ⟨h1, h2⟩
    simp only at h1 h2
    dsimp only
    split
    · exact (takes_propagate path' ch' c).mono h1 fun ch'' h => by omega
    · exact (Takes.pure (by omega)).le (Nat.zero_le _)
  dsimp only
  split
  · refine ((takes_repair _ _ _).bind (b := path.length) fun x hx => ?_).le (by omega)
    exact hjp x ⟨hx.1, by have := hx.2; omega⟩
  · refine (Takes.bind (a := 0) (b := path.length)
      (P := RepairedBy path.length (ch.nodes.length + 3 * path.length + 1)) ?_ fun x hx => ?_).le (by omega)
    · exact Takes.pure ⟨Nat.le_refl _, by simp [Changes.addNode]; omega⟩
    · exact hjp x hx

end Hyperbee
