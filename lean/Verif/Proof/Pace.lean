import Verif.Proof.Safe
import Verif.Proof.Steps
/-!
# How long a traversal may take to its next item

A stream over a node of height `h` yields an item, or ends, after at most `8 * h + 6` polls that find
their future ready: on its way down it goes through a child without a key in range at most once per level,
and on its way up it looks at one key per level.
-/

namespace Hyperbee

/-- Neighbours are of different parity. -/
def Turns : List Nat → Prop
  | a :: b :: l => a % 2 ≠ b % 2 ∧ Turns (b :: l)
  | _ => True

theorem Turns.tail {a : Nat} {l : List Nat} (h : Turns (a :: l)) : Turns l := by
  cases l with
  | nil => trivial
  | cons b l => exact h.2

theorem Turns.odd {a : Nat} {l : List Nat} (h : Turns (a :: l)) (ha : a % 2 = 0) : ∀ j, l.head? = some j → j % 2 = 1 := by
  intro j hj
  cases l with
  | nil => cases hj
  | cons b l =>
    cases hj
    have := h.1
    omega

theorem turns_range' (n : Nat) : ∀ a, Turns (List.range' a n) := by
  induction n with
  | zero => intro a; trivial
  | succ n ih =>
    intro a
    cases n with
    | zero => trivial
    | succ n => exact ⟨by omega, ih (a + 1)⟩

theorem Turns.snoc {l : List Nat} {b : Nat} (h : Turns l) (hb : ∀ a, l.getLast? = some a → a % 2 ≠ b % 2) : Turns (l ++ [b]) := by
  induction l with
  | nil => trivial
  | cons x l ih =>
    cases l with
    | nil => exact ⟨hb x rfl, trivial⟩
    | cons y l => exact ⟨h.1, ih h.2 fun a ha => hb a (by rw [List.getLast?_cons_cons]; exact ha)⟩

theorem Turns.reverse {l : List Nat} (h : Turns l) : Turns l.reverse := by
  induction l with
  | nil => trivial
  | cons x l ih =>
    rw [List.reverse_cons]
    refine (ih h.tail).snoc fun a ha => ?_
    rw [List.getLast?_reverse] at ha
    cases l with
    | nil => cases ha
    | cons y l =>
      cases ha
      exact fun e => h.1 e.symm

theorem turns_iterOf (conf : TraverseConfig) (m : Option Nat) (i nk : Nat) {nc : Nat} (h : nc ≠ 0) :
    Turns (iterOf conf m i nk nc) := by
  have hl : (nc == 0) = false := by simpa using h
  unfold iterOf
  simp only [hl, Bool.false_eq_true, if_false]
  generalize (if m.isSome then _ else _ : Option Nat) = start
  cases start with
  | none => trivial
  | some st =>
    simp only []
    cases conf.reversed with
    | false => simp only [Bool.not_false, if_true, Bool.false_eq_true, if_false]; rw [rangeStep_one]; exact turns_range' _ _
    | true => simp only [Bool.not_true, Bool.false_eq_true, if_false, if_true]; rw [rangeStep_one]; exact (turns_range' _ _).reverse

/-- The indices exist. -/
def Points (n : T) (is : List Nat) : Prop :=
  ∀ j ∈ is, if j % 2 = 0 then j / 2 < n.kids.length else j / 2 < n.keys.length

/-- A node as in `Vw`, of a well filled tree. -/
structure VwG (s : St) (h : Nat) (n : T) : Prop extends Vw s h n where
  good : ∃ root, GoodN root h n

theorem VwG.ext {s s' : St} {h : Nat} {n : T} (v : VwG s h n) (hw : SWF s) (e : Ext s s') : VwG s' h n :=
  ⟨v.toVw.ext hw e, v.good⟩

theorem VwG.kid_at {s : St} {h : Nat} {n t : T} (v : VwG s (h + 1) n) {i : Nat} (ht : n.kids[i]? = some t) : VwG s h t := by
  obtain ⟨h', vt⟩ := v.toVw.kid ht
  obtain ⟨root, hg⟩ := v.good
  have hs := v.shape
  obtain ⟨r, ks, ts⟩ := n
  exact ⟨⟨vt.rep, vt.coh, hs.2 t (List.mem_of_getElem? ht), vt.srt, vt.dfd⟩, false, hg.2.2 t (List.mem_of_getElem? ht)⟩

theorem VwG.leaf {s : St} {n : T} (v : VwG s 0 n) : n.kids = [] := by
  have := v.shape
  obtain ⟨r, ks, ts⟩ := n
  exact this

theorem VwG.slim {s : St} {h : Nat} {n : T} (v : VwG s h n) : n.node.keys.length ≤ 8 := by
  obtain ⟨root, hg⟩ := v.good
  obtain ⟨r, ks, ts⟩ := n
  cases h with
  | zero => exact hg.2.1
  | succ h => exact hg.2.1.1

/-- A stream over a node of height `h` that yields an item, or ends, after at most `φ` more polls. -/
inductive Paced (s : St) (conf : TraverseConfig) : Nat → Nat → List Frame → Prop where
  | setup {f : Frame} {h : Nat} {n : T} {k φ : Nat} : VwG s h n → addrOf s n.ref = some f.root →
      f.config = conf → f.nextKey = none → f.nextChild = none → f.iter = none →
      ((k = 3 ∧ f.nkcFut = false ∧ f.nkc = none ∧ f.iterFut = none) ∨
        (k = 2 ∧ f.nkcFut = true ∧ f.nkc = none ∧ f.iterFut = none) ∨
        (k = 1 ∧ f.nkc = some (n.keys.length, n.kids.length) ∧ f.iterFut = none) ∨
        (k = 0 ∧ f.nkc = some (n.keys.length, n.kids.length) ∧ f.iterFut = some false)) →
      k + 1 + (8 * h + 2) ≤ φ → Paced s conf h φ [f]
  | iter {f : Frame} {h : Nat} {n : T} {is : List Nat} {x : Nat × Nat} {φ : Nat} : VwG s h n →
      addrOf s n.ref = some f.root → f.config = conf → f.nextKey = none → f.nextChild = none →
      f.nkc = some x → f.iter = some is → Points n is → (n.kids ≠ [] → Turns is) → 2 ≤ φ →
      (∀ j, is.head? = some j → j % 2 = 0 → 8 * h + 2 ≤ φ) → Paced s conf h φ [f]
  | key {f : Frame} {h : Nat} {n : T} {i : Nat} {is : List Nat} {x : Nat × Nat} {φ : Nat} : VwG s h n →
      addrOf s n.ref = some f.root → f.config = conf → f.nextKey = some (i, false) → f.nextChild = none →
      f.nkc = some x → f.iter = some is → i < n.keys.length → Points n is → (n.kids ≠ [] → Turns is) → 1 ≤ φ →
      Paced s conf h φ [f]
  | child {f : Frame} {h : Nat} {n t : T} {i : Nat} {is : List Nat} {x : Nat × Nat} {φ : Nat} : VwG s (h + 1) n →
      addrOf s n.ref = some f.root → f.config = conf → f.nextKey = none → f.nextChild = some i →
      f.nkc = some x → f.iter = some is → n.kids[i]? = some t → Points n is → Turns is →
      (∀ j, is.head? = some j → j % 2 = 1) → 8 * h + 9 ≤ φ → Paced s conf (h + 1) φ [f]
  | sub {f c : Frame} {cs : List Frame} {h : Nat} {n : T} {is : List Nat} {x : Nat × Nat} {φ : Nat} :
      VwG s (h + 1) n → addrOf s n.ref = some f.root → f.config = conf → f.nextKey = none → f.nextChild = none →
      f.nkc = some x → f.iter = some is → Points n is → Turns is → (∀ j, is.head? = some j → j % 2 = 1) →
      Paced s conf h φ (c :: cs) → Paced s conf (h + 1) (φ + 2) (f :: c :: cs)

theorem Paced.pos {s : St} {conf : TraverseConfig} {h φ : Nat} {fs : List Frame} (hp : Paced s conf h φ fs) : 0 < φ := by
  cases hp <;> omega

theorem Paced.length {s : St} {conf : TraverseConfig} {h φ : Nat} {fs : List Frame} (hp : Paced s conf h φ fs) :
    fs.length ≤ h + 1 := by
  induction hp with
  | sub _ _ _ _ _ _ _ _ _ _ _ ih => simp only [List.length_cons] at ih ⊢; omega
  | _ => simp

/-- What one poll may do. -/
def PacePost (s s' : St) (conf : TraverseConfig) (ready : Bool) (h φ : Nat) (fs fs' : List Frame) : PollR → Prop
  | .pending _ waiting =>
      (waiting = true ∧ ready = false ∧ fs' = fs ∧ s' = s) ∨ (waiting = false ∧ ∃ φ', φ' < φ ∧ Paced s' conf h φ' fs')
  | .ready none _ => True
  | .ready (some _) _ => ∃ φ', φ' ≤ 8 * h + 2 ∧ Paced s' conf h φ' fs'

theorem pollSetup_pace {s : St} (hw : SWF s) {conf : TraverseConfig} {f : Frame} {h φ : Nat} {n : T}
    {k : Nat} (v : VwG s h n) (ha : addrOf s n.ref = some f.root) (hconf : f.config = conf)
    (hk : f.nextKey = none) (hc : f.nextChild = none) (hi : f.iter = none)
    (hp : (k = 3 ∧ f.nkcFut = false ∧ f.nkc = none ∧ f.iterFut = none) ∨
        (k = 2 ∧ f.nkcFut = true ∧ f.nkc = none ∧ f.iterFut = none) ∨
        (k = 1 ∧ f.nkc = some (n.keys.length, n.kids.length) ∧ f.iterFut = none) ∨
        (k = 0 ∧ f.nkc = some (n.keys.length, n.kids.length) ∧ f.iterFut = some false))
    (hφ : k + 1 + (8 * h + 2) ≤ φ) (ready : Bool) :
    ∃ r fs' s', pollSetup ready f s = (.ok (r, fs'), s') ∧ Ext s s' ∧ PacePost s s' conf ready h φ [f] fs' r := by
  obtain ⟨cf, rt, nf, nk, itf, it, nky, nch⟩ := f
  simp only at ha hconf hk hc hi hp
  subst hconf hk hc hi
  unfold pollSetup
  rcases hp with ⟨rfl, p1, p2, p3⟩ | ⟨rfl, p1, p2, p3⟩ | ⟨rfl, p2, p3⟩ | ⟨rfl, p2, p3⟩
  · subst p1 p2 p3
    simp only [if_true]
    refine ⟨_, _, s, rfl, Ext.refl hw, ?_⟩
    refine .inr ⟨rfl, ?_⟩
    exact ⟨φ - 1, by omega, .setup v ha rfl rfl rfl rfl (.inr (.inl ⟨rfl, rfl, rfl, rfl⟩)) (by omega)⟩
  · subst p1 p2 p3
    simp only []
    rw [if_neg (by simp)]
    cases ready with
    | false =>
      refine ⟨_, _, s, rfl, Ext.refl hw, ?_⟩
      exact .inl ⟨rfl, rfl, rfl, rfl⟩
    | true =>
      rw [if_neg (by simp), bind_ok (readNode_some (v.heap ha))]
      refine ⟨_, _, s, rfl, Ext.refl hw, ?_⟩
      refine .inr ⟨rfl, ?_⟩
      refine ⟨φ - 1, by omega, .setup v ha rfl rfl rfl rfl (.inr (.inr (.inl ⟨rfl, ?_, rfl⟩))) (by omega)⟩
      obtain ⟨r, ks, ts⟩ := n
      simp [T.node, T.keys, T.kids]
  · subst p2 p3
    simp only []
    refine ⟨_, _, s, rfl, Ext.refl hw, ?_⟩
    refine .inr ⟨rfl, ?_⟩
    exact ⟨φ - 1, by omega, .setup v ha rfl rfl rfl rfl (.inr (.inr (.inr ⟨rfl, rfl, rfl⟩))) (by omega)⟩
  · subst p2 p3
    simp only []
    cases ready with
    | false =>
      refine ⟨_, _, s, rfl, Ext.refl hw, ?_⟩
      exact .inl ⟨rfl, rfl, rfl, rfl⟩
    | true =>
      rw [if_neg (by simp)]
      have hn := v.heap ha
      obtain ⟨is, s', h1, e1, hwalk, m, i, his⟩ := makeIter_is hw hn cf.oneSided cf.oneSided_sound (ts := n.kids)
        (by cases n; simp [T.node, T.kids]) (by cases n; exact v.len) (by cases n; exact v.srt)
        (by cases n; exact v.srtKeys) (by cases n; exact v.dfdKeys)
      have hlen : n.node.keys.length = n.keys.length ∧ n.node.children.length = n.kids.length ∧ n.node.keys = n.keys := by
        cases n; simp [T.node, T.keys, T.kids]
      rw [hlen.1, hlen.2.1, ← cf.oneSided_iter] at h1
      rw [hlen.2.2] at hwalk
      rw [bind_ok (tryResult_ok h1)]
      refine ⟨_, _, s', rfl, e1, ?_⟩
      refine .inr ⟨rfl, ?_⟩
      refine ⟨φ - 1, by omega, .iter (v.ext hw e1) (e1.addr ha) rfl rfl rfl rfl rfl hwalk.valid (fun hne => ?_) (by omega)
        fun _ _ _ => by omega⟩
      rw [his]
      exact turns_iterOf _ _ _ _ (by simpa using hne)

theorem Paced.ext {s s' : St} {conf : TraverseConfig} {h φ : Nat} {fs : List Frame} (hp : Paced s conf h φ fs) (hw : SWF s)
    (e : Ext s s') : Paced s' conf h φ fs := by
  induction hp with
  | setup v a h1 h2 h3 h4 h5 h6 => exact .setup (v.ext hw e) (e.addr a) h1 h2 h3 h4 h5 h6
  | iter v a h1 h2 h3 h4 h5 h6 h7 h8 h9 => exact .iter (v.ext hw e) (e.addr a) h1 h2 h3 h4 h5 h6 h7 h8 h9
  | key v a h1 h2 h3 h4 h5 h6 h7 h8 h9 => exact .key (v.ext hw e) (e.addr a) h1 h2 h3 h4 h5 h6 h7 h8 h9
  | child v a h1 h2 h3 h4 h5 h6 h7 h8 h9 h10 => exact .child (v.ext hw e) (e.addr a) h1 h2 h3 h4 h5 h6 h7 h8 h9 h10
  | sub v a h1 h2 h3 h4 h5 h6 h7 h8 _ ih => exact .sub (v.ext hw e) (e.addr a) h1 h2 h3 h4 h5 h6 h7 h8 ih

theorem poll_pace {conf : TraverseConfig} {s : St} {fs : List Frame} {h φ : Nat} (hp : Paced s conf h φ fs) (hw : SWF s)
    (ready : Bool) :
    ∃ r fs' s', poll ready fs s = (.ok (r, fs'), s') ∧ Ext s s' ∧ PacePost s s' conf ready h φ fs fs' r := by
  induction hp with
  | setup v ha h1 h2 h3 h4 h5 h6 =>
    unfold poll
    simp only [h2, h3]
    exact pollSetup_pace hw v ha h1 h2 h3 h4 h5 h6 ready
  | @iter f h n is x φ v ha h1 h2 h3 h4 h5 h6 h7 h8 h9 =>
    obtain ⟨cf, rt, nf, nk, itf, it, nky, nch⟩ := f
    simp only at ha h1 h2 h3 h4 h5
    subst h1 h2 h3 h4 h5
    unfold poll
    simp only []
    unfold pollSetup
    obtain ⟨x1, x2⟩ := x
    simp only []
    cases is with
    | nil => exact ⟨_, _, s, rfl, Ext.refl hw, trivial⟩
    | cons j is =>
      have hv := h6 j (by simp)
      have hsh : j >>> 1 = j / 2 := by simp [Nat.shiftRight_succ]
      have hp' : Points n is := fun j hj => h6 j (List.mem_cons_of_mem _ hj)
      by_cases hj : j % 2 = 0
      · simp only [hj, if_true]
        refine ⟨_, _, s, rfl, Ext.refl hw, ?_⟩
        refine .inr ⟨rfl, ?_⟩
        rw [if_pos hj] at hv
        have ht : n.kids[j / 2]? = some n.kids[j / 2] := List.getElem?_eq_getElem hv
        have hφ := h9 j rfl hj
        have hne : n.kids ≠ [] := fun e => by rw [e] at hv; simp at hv
        cases h with
        | zero => exact absurd v.leaf hne
        | succ h =>
          exact ⟨φ - 1, by omega, .child (i := j / 2) v ha rfl rfl (by rw [hsh]) rfl rfl ht hp' (h7 hne).tail ((h7 hne).odd hj) (by omega)⟩
      · simp only [hj, if_false]
        refine ⟨_, _, s, rfl, Ext.refl hw, ?_⟩
        refine .inr ⟨rfl, ?_⟩
        rw [if_neg hj] at hv
        exact ⟨φ - 1, by omega, .key (i := j / 2) v ha rfl (by rw [hsh]) rfl rfl rfl hv hp' (fun hne => (h7 hne).tail) (by omega)⟩
  | @key f h n i is x φ v ha h1 h2 h3 h4 h5 hi h6 h7 h8 =>
    obtain ⟨cf, rt, nf, nk, itf, it, nky, nch⟩ := f
    simp only at ha h1 h2 h3 h4 h5
    subst h1 h2 h3 h4 h5
    unfold poll
    simp only []
    rw [if_neg (by simp)]
    cases ready with
    | false =>
      refine ⟨_, _, s, rfl, Ext.refl hw, ?_⟩
      exact .inl ⟨rfl, rfl, rfl, rfl⟩
    | true =>
      rw [if_neg (by simp)]
      have hn := v.heap ha
      have hkeys : n.node.keys = n.keys := by cases n; rfl
      have hq : n.keys[i]? = some n.keys[i] := List.getElem?_eq_getElem hi
      obtain ⟨b, hb⟩ := v.dfdKeys n.keys[i] (List.getElem_mem hi)
      obtain ⟨s', h7', e7⟩ := getKeyValue_run hw hn (i := i) (q := n.keys[i]) (by rw [hkeys]; exact hq) hb
      rw [bind_ok (tryResult_ok h7')]
      simp only []
      cases hin : cf.inBounds (keyOf s.core n.keys[i]) with
      | false => exact ⟨_, _, s', rfl, e7, trivial⟩
      | true =>
        rw [if_neg (by simp)]
        exact ⟨_, _, s', rfl, e7, 8 * h + 2, by omega,
          .iter (v.ext hw e7) (e7.addr ha) rfl rfl rfl rfl rfl h6 h7 (by omega) fun _ _ _ => by omega⟩
  | @child f h n t i is x φ v ha h1 h2 h3 h4 h5 ht h6 h7 h8 h9 =>
    obtain ⟨cf, rt, nf, nk, itf, it, nky, nch⟩ := f
    simp only at ha h1 h2 h3 h4 h5
    subst h1 h2 h3 h4 h5
    unfold poll
    simp only []
    cases ready with
    | false =>
      refine ⟨_, _, s, rfl, Ext.refl hw, ?_⟩
      exact .inl ⟨rfl, rfl, rfl, rfl⟩
    | true =>
      rw [if_neg (by simp)]
      have hn := v.heap ha
      have hch : n.node.children[i]? = some t.ref := by
        have : n.node.children = n.kids.map T.ref := by cases n; rfl
        rw [this, List.getElem?_map, ht]; rfl
      have vt := v.kid_at ht
      obtain ⟨a', s', h7', e7, ha'⟩ := getChild_run hw hn hch vt.rep.node
      rw [bind_ok (tryResult_ok h7')]
      simp only []
      refine ⟨_, _, s', rfl, e7, ?_⟩
      refine .inr ⟨rfl, ?_⟩
      refine ⟨8 * h + 6 + 2, by omega, .sub (v.ext hw e7) (e7.addr ha) rfl rfl rfl rfl rfl h6 h7 h8 ?_⟩
      exact .setup (f := Frame.new a' cf) (k := 3) (vt.ext hw e7) ha' rfl rfl rfl rfl (.inl ⟨rfl, rfl, rfl, rfl⟩) (by omega)
  | @sub f c cs h n is x φ v ha h1 h2 h3 h4 h5 h6 h7 h8 hs ih =>
    obtain ⟨r, fs', s', p1, e1, p2⟩ := ih
    unfold poll
    simp only [h2, h3]
    rw [bind_ok p1]
    have hv' := v.ext hw e1
    have ha' := e1.addr ha
    cases r with
    | pending woken waiting =>
      refine ⟨_, _, s', rfl, e1, ?_⟩
      rcases p2 with ⟨p3, p4, p5, p6⟩ | ⟨p3, φ', hlt, hst⟩
      · exact .inl ⟨p3, p4, by rw [p5], p6⟩
      · cases fs' with
        | nil => cases hst
        | cons c' cs' => exact .inr ⟨p3, φ' + 2, by omega, .sub hv' ha' h1 h2 h3 h4 h5 h6 h7 h8 hst⟩
    | ready item woken =>
      cases item with
      | none =>
        refine ⟨_, _, s', rfl, e1, ?_⟩
        refine .inr ⟨rfl, ?_⟩
        have hp := hs.pos
        exact ⟨2, by omega, .iter hv' ha' h1 h2 h3 h4 h5 h6 (fun _ => h7) (by omega) fun j hj h0 => by
          have := h8 j hj; omega⟩
      | some it =>
        obtain ⟨φ', hle, hst⟩ := p2
        obtain ⟨it1, it2⟩ := it
        cases fs' with
        | nil => cases hst
        | cons c' cs' =>
          exact ⟨_, _, s', rfl, e1, φ' + 2, by omega, .sub hv' ha' h1 h2 h3 h4 h5 h6 h7 h8 hst⟩

/-- A stream that has not ended yet has used up at most so many polls. -/
theorem drive_pace {β : Type} {post : Except Err KeyValueData → M β} (hpost : ∀ x s, (post x s).2 = s)
    {conf : TraverseConfig} {h : Nat} : ∀ (sched : List Bool) {s : St} {fs : List Frame} {φ : Nat}, SWF s → Paced s conf h φ fs → φ ≤ 8 * h + 6 →
    ∀ ys fs' s', drive post sched fs s = (.ok (ys, some fs'), s') →
      ∃ φ', SWF s' ∧ Paced s' conf h φ' fs' ∧ φ' ≤ 8 * h + 6 ∧ sched.count true + φ' ≤ φ + (8 * h + 3) * ys.length := by
  intro sched
  induction sched with
  | nil =>
    intro s fs φ hw hp hB ys fs' s' e
    cases e
    exact ⟨φ, hw, hp, hB, by simp⟩
  | cons r rs ih =>
    intro s fs φ hw hp hB ys fs' s' e
    obtain ⟨p, fs1, s1, h1, e1, hpost'⟩ := poll_pace hp hw r
    unfold drive at e
    rw [bind_ok h1] at e
    cases p with
    | pending woken waiting =>
      have key : ∃ φ', Paced s1 conf h φ' fs1 ∧ (if r then 1 else 0) + φ' ≤ φ := by
        rcases hpost' with ⟨_, rfl, rfl, rfl⟩ | ⟨_, f', hlt, hst⟩
        · exact ⟨φ, hp, by simp⟩
        · exact ⟨f', hst, by split <;> omega⟩
      obtain ⟨φ1, hst, hle⟩ := key
      obtain ⟨φ2, h6, h3, h5, h4⟩ := ih e1.wf hst (by omega) ys fs' s' e
      refine ⟨φ2, h6, h3, h5, ?_⟩
      cases r <;> simp at hle ⊢ <;> omega
    | ready item woken =>
      cases item with
      | none => cases e
      | some it =>
        obtain ⟨x, a⟩ := it
        obtain ⟨φ1, hle, hst⟩ := hpost'
        dsimp only at e
        have hx := hpost x s1
        cases hx' : post x s1 with
        | mk res s2 =>
          rw [hx'] at hx
          dsimp only at hx
          subst hx
          cases res with
          | error er =>
            exfalso
            rw [bind_error hx'] at e
            cases e
          | ok y =>
            rw [bind_ok hx'] at e
            cases hd : drive post rs fs1 s2 with
            | mk res s3 =>
              cases res with
              | error er =>
                rw [bind_error hd] at e
                cases e
              | ok z =>
                obtain ⟨ys', fin⟩ := z
                rw [bind_ok hd] at e
                cases e
                obtain ⟨φ2, h6, h3, h5, h4⟩ := ih e1.wf hst (by omega) ys' fs' s' hd
                refine ⟨φ2, h6, h3, h5, ?_⟩
                have hm : (8 * h + 3) * (y :: ys').length = (8 * h + 3) * ys'.length + (8 * h + 3) := by
                  rw [List.length_cons, Nat.mul_add, Nat.mul_one]
                have hpp := hp.pos
                rw [hm]
                cases r <;> simp <;> omega

/-- Polling on goes on from where the stream was. -/
theorem drive_append {β : Type} (post : Except Err KeyValueData → M β) (b : List Bool) : ∀ (a : List Bool) {s : St} {fs : List Frame}
    {xs ys : List β} {fs1 fs2 : List Frame} {s1 s2 : St}, drive post a fs s = (.ok (xs, some fs1), s1) →
    drive post (a ++ b) fs s = (.ok (ys, some fs2), s2) →
    ∃ zs, drive post b fs1 s1 = (.ok (zs, some fs2), s2) ∧ ys = xs ++ zs := by
  intro a
  induction a with
  | nil =>
    intro s fs xs ys fs1 fs2 s1 s2 h1 h2
    cases h1
    exact ⟨ys, h2, rfl⟩
  | cons r rs ih =>
    intro s fs xs ys fs1 fs2 s1 s2 h1 h2
    rw [List.cons_append] at h2
    unfold drive at h1 h2
    cases hp : poll r fs s with
    | mk res s0 =>
      cases res with
      | error e => rw [bind_error hp] at h1; cases h1
      | ok q =>
        obtain ⟨p, fs0⟩ := q
        rw [bind_ok hp] at h1 h2
        cases p with
        | pending woken waiting => exact ih h1 h2
        | ready item woken =>
          cases item with
          | none => cases h1
          | some it =>
            obtain ⟨x, n⟩ := it
            dsimp only at h1 h2
            cases hx : post x s0 with
            | mk res s0' =>
              cases res with
              | error e => rw [bind_error hx] at h1; cases h1
              | ok y =>
                rw [bind_ok hx] at h1 h2
                cases hd : drive post rs fs0 s0' with
                | mk res s3 =>
                  cases res with
                  | error e => rw [bind_error hd] at h1; cases h1
                  | ok z =>
                    obtain ⟨xs', fin⟩ := z
                    rw [bind_ok hd] at h1
                    cases h1
                    cases hd2 : drive post (rs ++ b) fs0 s0' with
                    | mk res s4 =>
                      cases res with
                      | error e => rw [bind_error hd2] at h2; cases h2
                      | ok z2 =>
                        obtain ⟨ys', fin2⟩ := z2
                        rw [bind_ok hd2] at h2
                        cases h2
                        obtain ⟨zs, h3, rfl⟩ := ih hd hd2
                        exact ⟨zs, h3, rfl⟩

theorem traverse_pace {s : St} {H : Nat} {t : T} (ht : TreeAt s.core H t) (hw : SWF s) (hc : Coh s (· ∈ t.refs))
    (conf : TraverseConfig) : ∃ fs s', traverse conf s = (.ok fs, s') ∧ Ext s s' ∧ Paced s' conf H (8 * H + 6) fs := by
  obtain ⟨a, s1, h1, e1, ha⟩ := getRoot_run ht hw false
  refine ⟨[Frame.new a conf], s1, ?_, e1, ?_⟩
  · unfold traverse
    rw [bind_ok h1]
    rfl
  · exact .setup (f := Frame.new a conf) (k := 3) (VwG.ext ⟨ht.vw hc, true, ht.good⟩ hw e1) ha rfl rfl rfl rfl (.inl ⟨rfl, rfl, rfl, rfl⟩) (by omega)

/-! ## Steps -/

theorem steps_tryResult (p : Prog α) : ∀ s, (Prog.tryResult p).steps s = p.steps s := by
  induction p with
  | pure a => intro s; rfl
  | throw e => intro s; cases e <;> rfl
  | step x k ih => intro s; exact congrArg (· + 1) (ih _ _)

theorem steps_bind_none (p : Prog α) {f : α → Prog β} (hf : ∀ a s, (f a).steps s = 0) (s : St) :
    (p >>= f).steps s = p.steps s := by
  rw [Prog.steps_bind]
  cases (p.run s).1 with
  | error e => rfl
  | ok a => simp only [hf]; rfl

theorem makeIter_steps {s : St} {a : Nat} {n : Node} (hn : s.heap[a]? = some n) (h8 : n.keys.length ≤ 8)
    (conf : TraverseConfig) (nk nc : Nat) : (Prog.makeChildKeyIndexIter conf a nk nc).steps s ≤ 29 := by
  unfold Prog.makeChildKeyIndexIter
  cases conf.reversed <;> dsimp only <;>
  · rw [steps_bind_none]
    · exact getIndexOfKey_steps hn h8 _
    · rintro ⟨m, i⟩ s
      dsimp only
      split <;> rfl

theorem poll_steps {conf : TraverseConfig} {s : St} {fs : List Frame} {h φ : Nat} (hp : Paced s conf h φ fs) (ready : Bool) :
    (Prog.poll ready fs).steps s ≤ 29 := by
  induction hp with
  | @setup f h n k φ v ha h1 h2 h3 h4 h5 h6 =>
    unfold Prog.poll
    simp only [h2, h3]
    unfold Prog.pollSetup
    split
    · split
      · exact Nat.zero_le _
      · split
        · exact Nat.zero_le _
        · have : Takes (1 + (1 + 0)) Anything (Prog.readNode f.root >>= fun n => Prog.under f.root .read (Prog.readNode f.root) >>= fun m =>
              (Pure.pure (.pending true false, [{ f with nkc := some (n.keys.length, m.children.length) }]) : Prog (PollR × List Frame))) :=
            (Takes.readNode _).bind fun _ _ => ((Takes.readNode _).under _ _).bind fun _ _ => Takes.pure trivial
          exact Nat.le_trans (this s).1 (by omega)
    · rw [h4]
      dsimp only
      split
      · exact Nat.zero_le _
      · exact Nat.zero_le _
      · split
        · exact Nat.zero_le _
        · rw [steps_bind_none, steps_tryResult]
          · exact makeIter_steps (v.heap ha) v.slim _ _ _
          · intro a s
            cases a <;> rfl
  | @iter f h n is x φ v ha h1 h2 h3 h4 h5 h6 h7 h8 h9 =>
    unfold Prog.poll
    simp only [h2, h3]
    unfold Prog.pollSetup
    rw [h4, h5]
    obtain ⟨x1, x2⟩ := x
    cases is with
    | nil => exact Nat.zero_le _
    | cons j is =>
      dsimp only
      split <;> exact Nat.zero_le _
  | @key f h n i is x φ v ha h1 h2 h3 h4 h5 hi h6 h7 h8 =>
    unfold Prog.poll
    simp only [h2]
    rw [if_neg (by simp)]
    split
    · exact Nat.zero_le _
    · rw [steps_bind_none, steps_tryResult]
      · exact Nat.le_trans (takes_getKeyValue _ _ s).1 (by omega)
      · intro a s
        cases a with
        | error e => rfl
        | ok kv => dsimp only; split <;> rfl
  | @child f h n t i is x φ v ha h1 h2 h3 h4 h5 ht h6 h7 h8 h9 =>
    unfold Prog.poll
    simp only [h2, h3]
    split
    · exact Nat.zero_le _
    · rw [steps_bind_none, steps_tryResult]
      · exact Nat.le_trans (takes_getChild _ _ s).1 (by omega)
      · intro a s
        cases a <;> rfl
  | @sub f c cs h n is x φ v ha h1 h2 h3 h4 h5 h6 h7 h8 hs ih =>
    unfold Prog.poll
    simp only [h2, h3]
    rw [steps_bind_none]
    · exact ih
    · rintro ⟨p, rest'⟩ s
      cases p with
      | pending a b => rfl
      | ready o b => cases o <;> rfl

theorem drive_steps {β : Type} {post : Except Err KeyValueData → Prog β} (hp0 : ∀ x s, (post x).steps s = 0)
    (hp1 : ∀ x s, ((post x).run s).2 = s) {conf : TraverseConfig} {h : Nat} :
    ∀ (sched : List Bool) {s : St} {fs : List Frame} {φ : Nat}, SWF s → Paced s conf h φ fs →
      (Prog.drive post sched fs).steps s ≤ 29 * sched.length := by
  intro sched
  induction sched with
  | nil => intro s fs φ _ _; exact Nat.zero_le _
  | cons r rs ih =>
    intro s fs φ hw hp
    obtain ⟨p, fs1, s1, h1, e1, hpost⟩ := poll_pace hp hw r
    have h2 := poll_steps hp r
    have hr : (Prog.poll r fs).run s = (.ok (p, fs1), s1) := by rw [show (Prog.poll r fs).run = poll r fs from does_poll r fs]; exact h1
    unfold Prog.drive
    rw [Prog.steps_bind, hr, List.length_cons]
    dsimp only
    cases p with
    | pending woken waiting =>
      have : ∃ φ', Paced s1 conf h φ' fs1 := by
        rcases hpost with ⟨_, rfl, rfl, rfl⟩ | ⟨_, f', hlt, hst⟩
        · exact ⟨φ, hp⟩
        · exact ⟨f', hst⟩
      obtain ⟨φ', hst⟩ := this
      have := ih e1.wf hst
      dsimp only
      omega
    | ready item woken =>
      cases item with
      | none =>
        show _ + 0 ≤ _
        omega
      | some it =>
        obtain ⟨x, a⟩ := it
        obtain ⟨φ', _, hst⟩ := hpost
        have := ih e1.wf hst
        dsimp only
        rw [Prog.steps_bind, hp0, hp1]
        cases ((post x).run s1).1 with
        | error e => simp only []; omega
        | ok y =>
          simp only []
          rw [steps_bind_none _ (by rintro ⟨ys, fin⟩ s; rfl)]
          omega

/-- One poll more takes at most twenty-nine steps more. -/
theorem drive_steps_snoc {β : Type} {post : Except Err KeyValueData → Prog β} (hp0 : ∀ x s, (post x).steps s = 0)
    (hp1 : ∀ x s, ((post x).run s).2 = s) {conf : TraverseConfig} {h : Nat} (q : Bool) :
    ∀ (sched : List Bool) {s : St} {fs : List Frame} {φ : Nat}, SWF s → Paced s conf h φ fs →
      (Prog.drive post (sched ++ [q]) fs).steps s ≤ (Prog.drive post sched fs).steps s + 29 := by
  intro sched
  induction sched with
  | nil =>
    intro s fs φ hw hp
    have := drive_steps hp0 hp1 [q] hw hp
    rw [List.length_singleton] at this
    show (Prog.drive post [q] fs).steps s ≤ _
    omega
  | cons r rs ih =>
    intro s fs φ hw hp
    obtain ⟨p, fs1, s1, h1, e1, hpost⟩ := poll_pace hp hw r
    have h2 := poll_steps hp r
    have hr : (Prog.poll r fs).run s = (.ok (p, fs1), s1) := by rw [show (Prog.poll r fs).run = poll r fs from does_poll r fs]; exact h1
    rw [List.cons_append]
    unfold Prog.drive
    rw [Prog.steps_bind, Prog.steps_bind, hr]
    dsimp only
    cases p with
    | pending woken waiting =>
      have : ∃ φ', Paced s1 conf h φ' fs1 := by
        rcases hpost with ⟨_, rfl, rfl, rfl⟩ | ⟨_, f', hlt, hst⟩
        · exact ⟨φ, hp⟩
        · exact ⟨f', hst⟩
      obtain ⟨φ', hst⟩ := this
      have := ih e1.wf hst
      dsimp only
      omega
    | ready item woken =>
      cases item with
      | none =>
        show _ + 0 ≤ _ + 0 + 29
        omega
      | some it =>
        obtain ⟨x, a⟩ := it
        obtain ⟨φ', _, hst⟩ := hpost
        have := ih e1.wf hst
        dsimp only
        rw [Prog.steps_bind, Prog.steps_bind, hp0, hp1]
        cases ((post x).run s1).1 with
        | error e => simp only []; omega
        | ok y =>
          simp only []
          rw [steps_bind_none _ (by rintro ⟨ys, fin⟩ s; rfl), steps_bind_none _ (by rintro ⟨ys, fin⟩ s; rfl)]
          omega

end Hyperbee
