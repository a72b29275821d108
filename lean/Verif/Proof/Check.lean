import Verif.Model.Check
import Verif.SpecCheck
import Verif.Proof.Blame
import Verif.Proof.Debug
import Verif.Proof.RelTop
/-!
# The check of the test suite
-/

namespace Hyperbee

/-! ## Depth -/

/-- The number of levels of the deepest branch. -/
def T.depth : T → Nat
  | .mk _ _ ts => (ts.map T.depth).foldr max 0 + 1

theorem le_foldr_max : ∀ {l : List Nat} {x : Nat}, x ∈ l → x ≤ l.foldr max 0
  | y :: l, x, h => by
    rw [List.foldr_cons]
    rcases List.mem_cons.mp h with rfl | h
    · omega
    · have := le_foldr_max h
      omega

theorem foldr_max_mem : ∀ {l : List Nat}, l ≠ [] → l.foldr max 0 ∈ l
  | [], h => absurd rfl h
  | [x], _ => by simp
  | x :: y :: l, _ => by
    have := foldr_max_mem (l := y :: l) (by simp)
    rw [List.foldr_cons]
    rcases Nat.le_total x ((y :: l).foldr max 0) with h | h
    · rw [Nat.max_eq_right h]
      exact List.mem_cons_of_mem _ this
    · rw [Nat.max_eq_left h]
      simp

theorem T.depth_kid {t u : T} (h : u ∈ t.kids) : u.depth < t.depth := by
  obtain ⟨r, ks, ts⟩ := t
  have := le_foldr_max (List.mem_map_of_mem (f := T.depth) (show u ∈ ts from h))
  rw [T.depth]
  omega

theorem Rep.branch {N : Child → Option Node} {t : T} (h : Rep N t) : ∃ xs : List T, xs.length = t.depth ∧
    (∀ x ∈ xs, Rep N x ∧ x.depth ≤ t.depth) ∧ xs.Pairwise fun a b => b.depth < a.depth := by
  induction t using T.ind with
  | h r ks ts ih =>
    rcases Nat.eq_zero_or_pos ts.length with h0 | h0
    · obtain rfl := List.length_eq_zero_iff.mp h0
      exact ⟨[.mk r ks []], by simp [T.depth], by simpa using h, by simp⟩
    · have := foldr_max_mem (l := ts.map T.depth) (by intro h; simp at h; simp [h] at h0)
      obtain ⟨u, hu, he⟩ := List.mem_map.mp this
      obtain ⟨xs, h1, h2, h3⟩ := ih u hu (h.kids u hu)
      have hd : T.depth (.mk r ks ts) = u.depth + 1 := by rw [T.depth, he]
      refine ⟨.mk r ks ts :: xs, by rw [List.length_cons, h1, hd], ?_, List.pairwise_cons.mpr ⟨fun x hx => ?_, h3⟩⟩
      · intro x hx
        rcases List.mem_cons.mp hx with rfl | hx
        · exact ⟨h, Nat.le_refl _⟩
        · exact ⟨(h2 x hx).1, by have := (h2 x hx).2; omega⟩
      · have := (h2 x hx).2
        omega

theorem Rep.depth_lt {c : List Bytes} {t : T} (h : Rep (nodeAt c) t) : t.depth < stepBound c := by
  obtain ⟨xs, h1, h2, h3⟩ := h.branch
  have hnd : (xs.map fun x => (x.ref.seq, x.ref.offset)).Nodup := by
    unfold List.Nodup
    rw [List.pairwise_map]
    refine (List.Pairwise.and_mem.mp h3).imp ?_
    intro a b hab he
    have hr : a.ref = b.ref := by
      cases ha : a.ref; cases hb : b.ref
      rw [ha, hb] at he
      simpa using he
    have := Rep.unique a (h2 a hab.1).1 (h2 b hab.2.1).1 hr
    have := hab.2.2
    subst_vars
    omega
  have := (List.subperm_of_subset hnd (l₂ := allNodes 0 c) (fun p hp => by
    obtain ⟨x, hx, rfl⟩ := List.mem_map.mp hp
    exact nodeAt_mem (h2 x hx).1.node)).length_le
  rw [length_allNodes, List.length_map, h1] at this
  exact Nat.lt_of_le_of_lt this (nodeCount_sum_lt c)

/-! ## Order -/

theorem checkSorted_run (l : List Bytes) (s : St) : (l.Pairwise (· < ·) ∧ checkSorted l s = (.ok (), s)) ∨
    (¬ l.Pairwise (· < ·) ∧ ∃ m, checkSorted l s = (.error (.panic m), s)) := by
  induction l with
  | nil => exact .inl ⟨.nil, rfl⟩
  | cons x l ih =>
    cases l with
    | nil => exact .inl ⟨by simp, rfl⟩
    | cons y l =>
      unfold checkSorted
      by_cases hxy : y ≤ x
      · rw [if_pos hxy]
        refine .inr ⟨fun h => ?_, _, rfl⟩
        exact absurd ((List.pairwise_cons.mp h).1 y (by simp)) (List.not_lt.mpr hxy)
      · rw [if_neg hxy]
        have hlt : x < y := List.not_le.mp hxy
        rcases ih with ⟨h1, h2⟩ | ⟨h1, h2⟩
        · refine .inl ⟨List.pairwise_cons.mpr ⟨fun z hz => ?_, h1⟩, h2⟩
          rcases List.mem_cons.mp hz with rfl | hz
          · exact hlt
          · exact List.lt_trans hlt ((List.pairwise_cons.mp h1).1 z hz)
        · exact .inr ⟨fun h => h1 (List.pairwise_cons.mp h).2, h2⟩

theorem mem_interleave : ∀ (a b : List Bytes) (x : Bytes), x ∈ checkInterleave a b ↔ x ∈ a ∨ x ∈ b
  | [], b, x => by simp [checkInterleave]
  | y :: a, [], x => by simp [checkInterleave]
  | y :: a, z :: b, x => by
    rw [checkInterleave]
    simp only [List.mem_cons, mem_interleave a b]
    constructor
    · rintro (h | h | h | h)
      · exact .inl (.inl h)
      · exact .inr (.inl h)
      · exact .inl (.inr h)
      · exact .inr (.inr h)
    · rintro ((h | h) | (h | h))
      · exact .inl h
      · exact .inr (.inr (.inl h))
      · exact .inr (.inl h)
      · exact .inr (.inr (.inr h))

theorem interleave_sorted : ∀ (a b : List Bytes), a.length = b.length + 1 →
    ((checkInterleave a b).Pairwise (· < ·) ↔ b.Pairwise (· < ·) ∧
      (∀ (i : Nat) f k, a[i]? = some f → b[i]? = some k → f < k) ∧ ∀ (i : Nat) f k, a[i + 1]? = some f → b[i]? = some k → k < f)
  | [], b, h => by simp at h
  | x :: a, [], h => by
    obtain rfl : a = [] := by simpa using h
    simp [checkInterleave]
  | x :: a, y :: b, h => by
    have h' : a.length = b.length + 1 := by simpa using h
    have ih := interleave_sorted a b h'
    obtain ⟨z, a', rfl⟩ : ∃ z a', a = z :: a' := by
      cases a with
      | nil => simp at h'
      | cons z a' => exact ⟨z, a', rfl⟩
    rw [checkInterleave]
    constructor
    · intro hp
      obtain ⟨p1, p2⟩ := List.pairwise_cons.mp hp
      obtain ⟨p3, p4⟩ := List.pairwise_cons.mp p2
      obtain ⟨q1, q2, q3⟩ := ih.mp p4
      refine ⟨List.pairwise_cons.mpr ⟨fun w hw => p3 w ((mem_interleave _ _ _).mpr (.inr hw)), q1⟩, ?_, ?_⟩
      · intro i f k hf hk
        cases i with
        | zero =>
          cases hf
          cases hk
          exact p1 _ (by simp)
        | succ i => exact q2 i f k (by simpa using hf) (by simpa using hk)
      · intro i f k hf hk
        cases i with
        | zero =>
          cases hk
          have : z = f := by simpa using hf
          subst this
          exact p3 _ ((mem_interleave _ _ _).mpr (.inl (by simp)))
        | succ i => exact q3 i f k (by simpa using hf) (by simpa using hk)
    · rintro ⟨q1, q2, q3⟩
      have p4 := ih.mpr ⟨(List.pairwise_cons.mp q1).2, fun i f k hf hk => q2 (i + 1) f k (by simpa using hf) (by simpa using hk),
        fun i f k hf hk => q3 (i + 1) f k (by simpa using hf) (by simpa using hk)⟩
      have hyz : y < z := q3 0 z y (by simp) (by simp)
      have hxy : x < y := q2 0 x y (by simp) (by simp)
      have hy : ∀ w ∈ checkInterleave (z :: a') b, y < w := by
        intro w hw
        cases b with
        | nil =>
          obtain rfl : a' = [] := by simpa using h'
          have : w = z := by simpa [checkInterleave] using hw
          rw [this]
          exact hyz
        | cons y2 b =>
          rw [checkInterleave] at hw p4
          rcases List.mem_cons.mp hw with rfl | hw
          · exact hyz
          · exact List.lt_trans hyz ((List.pairwise_cons.mp p4).1 w hw)
      refine List.pairwise_cons.mpr ⟨fun w hw => ?_, List.pairwise_cons.mpr ⟨hy, p4⟩⟩
      rcases List.mem_cons.mp hw with rfl | hw
      · exact hxy
      · exact List.lt_trans hxy (hy w hw)

/-! ## The check of a node -/

theorem expectOk_ok {site : String} {m : M α} {s s' : St} {a : α} (h : m s = (.ok a, s')) : expectOk site m s = (.ok a, s') := by
  unfold expectOk
  rw [h]

theorem expectOk_panic {site p : String} {m : M α} {s s' : St} (h : m s = (.error (.panic p), s')) :
    expectOk site m s = (.error (.panic p), s') := by
  unfold expectOk
  rw [h]

theorem bind_panic {m : M α} {f : α → M β} {s s' : St} {e : Err} (h : m s = (.error e, s')) : (m >>= f) s = (.error e, s') := by
  rw [bind_run, h]

theorem checkKeys_run {a : Nat} {n : Node} : ∀ (js : List Nat) (i : Nat) (s : St), SWF s → s.heap[a]? = some n →
    n.keys.drop i = js → (∀ q ∈ js, ∃ b, blockAt s.core q = some b) →
    ∃ s', checkKeys a (List.range' i js.length) s = (.ok (js.map (keyOf s.core)), s') ∧ Ext s s'
  | [], i, s, hw, _, _, _ => ⟨s, rfl, Ext.refl hw⟩
  | q :: js, i, s, hw, hn, hd, hb => by
    have hq : n.keys[i]? = some q := by
      have := List.getElem?_drop (xs := n.keys) (i := i) (j := 0)
      rw [hd] at this
      simpa using this.symm
    obtain ⟨b, hb0⟩ := hb q (by simp)
    obtain ⟨s1, h1, e1⟩ := getKeyValue_run hw hn hq hb0
    have hlt : a < s.heap.length := (List.getElem?_eq_some_iff.mp hn).1
    obtain ⟨xs, hx⟩ := e1.heap
    obtain ⟨s2, h2, e2⟩ := checkKeys_run js (i + 1) s1 e1.wf (by rw [hx, List.getElem?_append_left hlt, hn]) (by
      rw [← List.drop_drop, hd, List.drop_one, List.tail_cons]) (by
      rw [e1.core]
      exact fun q hq => hb q (by simp [hq]))
    refine ⟨s2, ?_, e1.trans e2⟩
    rw [List.length_cons, List.range'_succ]
    unfold checkKeys
    rw [bind_ok (expectOk_ok h1), bind_ok h2, e1.core]
    rfl

/-- Everything from a node down is checked. -/
def AllChecked (c : List Bytes) (t : T) : Prop := ∀ u ∈ (t.spec c).subtrees, NodeChecked u

/-- How a check ends: well, if `P`, and in a panic otherwise. -/
def Ends (m : M α) (s : St) (P : Prop) (Q : α → Prop) : Prop :=
  (P ∧ ∃ a s', m s = (.ok a, s') ∧ Ext s s' ∧ Q a) ∨ (¬ P ∧ ∃ p s', m s = (.error (.panic p), s') ∧ Ext s s')

theorem Ends.bind {m : M α} {f : α → M β} {s : St} {P P' : Prop} {Q : α → Prop} {Q' : β → Prop} (h : Ends m s P Q)
    (h0 : ¬ P → ¬ P') (hf : P → ∀ a s', Ext s s' → Q a → Ends (f a) s' P' Q') : Ends (m >>= f) s P' Q' := by
  rcases h with ⟨hp, a, s', h1, e1, hq⟩ | ⟨hp, p, s', h1, e1⟩
  · rcases hf hp a s' e1 hq with ⟨hp', b, s2, h2, e2, hq'⟩ | ⟨hp', p, s2, h2, e2⟩
    · exact .inl ⟨hp', b, s2, by rw [bind_ok h1, h2], e1.trans e2, hq'⟩
    · exact .inr ⟨hp', p, s2, by rw [bind_ok h1, h2], e1.trans e2⟩
  · exact .inr ⟨h0 hp, p, s', bind_panic h1, e1⟩

theorem Ends.after {m : M α} {f : α → M β} {s s' : St} {P : Prop} {Q : β → Prop} {a : α} (h : m s = (.ok a, s'))
    (e : Ext s s') (hf : Ends (f a) s' P Q) : Ends (m >>= f) s P Q := by
  rcases hf with ⟨hp', b, s2, h2, e2, hq'⟩ | ⟨hp', p, s2, h2, e2⟩
  · exact .inl ⟨hp', b, s2, by rw [bind_ok h, h2], e.trans e2, hq'⟩
  · exact .inr ⟨hp', p, s2, by rw [bind_ok h, h2], e.trans e2⟩

theorem Ends.panic {s : St} (hw : SWF s) {P : Prop} {Q : α → Prop} {p : String} (h : ¬ P) : Ends (throw (.panic p)) s P Q :=
  .inr ⟨h, p, s, rfl, Ext.refl hw⟩

theorem Ends.congr {m : M α} {s : St} {P P' : Prop} {Q : α → Prop} (h : Ends m s P Q) (hp : P ↔ P') : Ends m s P' Q := by
  rwa [← propext hp]

theorem ends_sorted (l : List Bytes) {s : St} (hw : SWF s) : Ends (checkSorted l) s (l.Pairwise (· < ·)) (fun _ => True) := by
  rcases checkSorted_run l s with ⟨h1, h2⟩ | ⟨h1, p, h2⟩
  · exact .inl ⟨h1, (), s, h2, Ext.refl hw, trivial⟩
  · exact .inr ⟨h1, p, s, h2, Ext.refl hw⟩

/-- The first key of a node that has one. -/
def T.first (c : List Bytes) (t : T) : Bytes := keyOf c (t.keys.headD 0)

theorem allChecked_ne {c : List Bytes} {t : T} (h : AllChecked c t) : t.keys ≠ [] := by
  intro h0
  have := (h _ (mem_subtrees.mpr (.inl rfl))).least
  rw [spec_keys, h0] at this
  simp at this

/-- What is assumed of a tree while it is checked. -/
structure Sight (s : St) (t : T) : Prop where
  wf : SWF s
  rep : Rep (nodeAt s.core) t
  coh : Coh s (· ∈ t.refs)
  dfd : ∀ q ∈ t.flat, ∃ b, blockAt s.core q = some b

theorem Sight.ext {s s' : St} {t : T} (h : Sight s t) (e : Ext s s') : Sight s' t :=
  ⟨e.wf, by rw [e.core]; exact h.rep, e.coh h.wf h.coh, by rw [e.core]; exact h.dfd⟩

theorem Sight.kid {s : St} {t u : T} (h : Sight s t) (hu : u ∈ t.kids) : Sight s u := by
  obtain ⟨r, ks, ts⟩ := t
  refine ⟨h.wf, h.rep.kids u hu, h.coh.mono fun r' hr' => ?_, fun q hq => h.dfd q ?_⟩
  · simp only [T.refs, List.mem_cons]
    exact .inr (mem_refsL.mpr ⟨u, hu, hr'⟩)
  · rw [T.flat]
    exact mem_flatL (.inr ⟨u, hu, hq⟩)

theorem Sight.node {s : St} {t : T} (h : Sight s t) {a : Nat} (ha : addrOf s t.ref = some a) : s.heap[a]? = some t.node := by
  rw [h.coh t.ref (T.ref_mem_refs t) a ha]
  exact h.rep.node

theorem Sight.keys {s : St} {t : T} (h : Sight s t) : ∀ q ∈ t.keys, ∃ b, blockAt s.core q = some b := by
  obtain ⟨r, ks, ts⟩ := t
  exact fun q hq => h.dfd q (by rw [T.flat]; exact mem_flatL (.inl hq))

/-- Getting a child of a node that is being checked. -/
theorem Sight.child {s : St} {t u : T} (h : Sight s t) {a i : Nat} (ha : addrOf s t.ref = some a) (hu : t.kids[i]? = some u)
    {site : String} : ∃ a' s', expectOk site (getChild a i) s = (.ok a', s') ∧ Ext s s' ∧ addrOf s' u.ref = some a' := by
  have hk := h.kid (List.mem_of_getElem? hu)
  obtain ⟨m, hm⟩ := hk.rep.refs_some _ (T.ref_mem_refs u)
  obtain ⟨a', s', h1, e, h2⟩ := getChild_run h.wf (h.node ha) (i := i) (r := u.ref) (by
    obtain ⟨r, ks, ts⟩ := t
    show (ts.map T.ref)[i]? = _
    rw [List.getElem?_map, show ts[i]? = some u from hu]
    rfl) hm
  exact ⟨a', s', expectOk_ok h1, e, h2⟩

theorem ends_kids {check : Nat → M Unit} {t : T} {a : Nat}
    (hc : ∀ u ∈ t.kids, ∀ (s : St) (a' : Nat), Sight s u → addrOf s u.ref = some a' → Ends (check a') s (AllChecked s.core u) fun _ => True) :
    ∀ (us : List T) (i : Nat) (s : St), Sight s t → addrOf s t.ref = some a → t.kids.drop i = us →
    Ends (checkKids check a (List.range' i us.length)) s (∀ u ∈ us, AllChecked s.core u)
      fun fs => fs = us.map (T.first s.core)
  | [], i, s, h, _, _ => .inl ⟨by simp, [], s, rfl, Ext.refl h.wf, rfl⟩
  | u :: us, i, s, h, ha, hd => by
    have hu : t.kids[i]? = some u := by
      have := List.getElem?_drop (xs := t.kids) (i := i) (j := 0)
      rw [hd] at this
      simpa using this.symm
    have hm := List.mem_of_getElem? hu
    rw [List.length_cons, List.range'_succ]
    unfold checkKids
    obtain ⟨a', s1, h1, e1, ha'⟩ := h.child (site := "test/mod.rs:86 get child always works in tests") ha hu
    have r1 := (h.ext e1).kid hm
    refine Ends.after h1 e1 ?_
    cases hk : u.keys with
    | nil =>
      refine .inr ⟨fun hall => allChecked_ne (hall u (by simp)) hk, "lib.rs:235 keys[index]", s1, ?_, Ext.refl e1.wf⟩
      refine bind_panic (expectOk_panic ?_)
      unfold getKeyValue
      rw [bind_ok (readNode_some (r1.node ha'))]
      obtain ⟨r, ks, ts⟩ := u
      obtain rfl : ks = [] := hk
      rfl
    | cons q ks =>
      obtain ⟨b, hb⟩ := r1.keys q (by rw [hk]; simp)
      obtain ⟨s2, h2, e2⟩ := getKeyValue_run e1.wf (r1.node ha') (i := 0) (q := q) (by
        obtain ⟨r, ks', ts⟩ := u
        obtain rfl : ks' = q :: ks := hk
        rfl) hb
      refine Ends.after (expectOk_ok h2) e2 ?_
      refine Ends.bind (hc u hm s2 a' (r1.ext e2) (e2.addr ha')) (fun hn hall => hn ?_) fun hp _ s3 e3 _ => ?_
      · rw [e2.core, e1.core]
        exact hall u (by simp)
      have e123 := (e1.trans e2).trans e3
      refine Ends.bind (ends_kids hc us (i + 1) s3 (h.ext e123) (e123.addr ha) (by
        rw [← List.drop_drop, hd, List.drop_one, List.tail_cons])) (fun hn hall => hn ?_) fun hp' fs s4 e4 hfs => ?_
      · rw [e123.core]
        exact fun v hv => hall v (by simp [hv])
      rw [e123.core] at hp' hfs
      rw [e2.core, e1.core] at hp
      refine .inl ⟨?_, _, s4, rfl, Ext.refl e4.wf, ?_⟩
      · intro v hv
        rcases List.mem_cons.mp hv with rfl | hv
        · exact hp
        · exact hp' v hv
      · rw [List.map_cons, hfs]
        congr 1
        show keyOf s1.core q = _
        rw [e1.core, T.first, hk]
        rfl

theorem nodeChecked_spec {c : List Bytes} {t : T} (hk : ∀ u ∈ t.kids, u.keys ≠ []) :
    NodeChecked (t.spec c) ↔ 4 ≤ t.keys.length ∧ t.keys.length ≤ 8 ∧ (t.kids = [] ∨ t.kids.length = t.keys.length + 1) ∧
      (t.keys.map (keyOf c)).Pairwise (· < ·) ∧
      (∀ (i : Nat) f k, (t.kids.map (T.first c))[i]? = some f → (t.keys.map (keyOf c))[i]? = some k → f < k) ∧
      ∀ (i : Nat) f k, (t.kids.map (T.first c))[i + 1]? = some f → (t.keys.map (keyOf c))[i]? = some k → k < f := by
  have hfirst : ∀ u ∈ t.kids, ∃ q, ((u.spec c).keys.head?) = some (q, T.first c u) := by
    intro u hu
    rw [spec_keys]
    cases h : u.keys with
    | nil => exact absurd h (hk u hu)
    | cons q ks => exact ⟨q, by simp [T.first, h]⟩
  have kidOf : ∀ {i : Nat} {f : Bytes}, (t.kids.map (T.first c))[i]? = some f →
      ∃ v q, (t.spec c).kids[i]? = some v ∧ v.keys.head? = some (q, f) := by
    intro i f h
    rw [List.getElem?_map] at h
    obtain ⟨u, hu, rfl⟩ := Option.map_eq_some_iff.mp h
    obtain ⟨q, hq⟩ := hfirst u (List.mem_of_getElem? hu)
    exact ⟨u.spec c, q, by rw [spec_kids, List.getElem?_map, hu]; rfl, hq⟩
  have keyOf' : ∀ {i : Nat} {k : Bytes}, (t.keys.map (keyOf c))[i]? = some k → ∃ q, (t.spec c).keys[i]? = some (q, k) := by
    intro i k h
    rw [List.getElem?_map] at h
    obtain ⟨q, hq, rfl⟩ := Option.map_eq_some_iff.mp h
    exact ⟨q, by rw [spec_keys, List.getElem?_map, hq]; rfl⟩
  have kidTo : ∀ {i : Nat} {v : STree} {f : Nat × Bytes}, (t.spec c).kids[i]? = some v → v.keys.head? = some f →
      (t.kids.map (T.first c))[i]? = some f.2 := by
    intro i v f h1 h2
    rw [spec_kids, List.getElem?_map] at h1
    obtain ⟨u, hu, rfl⟩ := Option.map_eq_some_iff.mp h1
    obtain ⟨q, hq⟩ := hfirst u (List.mem_of_getElem? hu)
    rw [hq] at h2
    cases h2
    rw [List.getElem?_map, hu]
    rfl
  have keyTo : ∀ {i : Nat} {k : Nat × Bytes}, (t.spec c).keys[i]? = some k → (t.keys.map (keyOf c))[i]? = some k.2 := by
    intro i k h
    rw [spec_keys, List.getElem?_map] at h
    obtain ⟨q, hq, rfl⟩ := Option.map_eq_some_iff.mp h
    rw [List.getElem?_map, hq]
    rfl
  have hpw : (t.spec c).keys.Pairwise (fun a b => a.2 < b.2) ↔ (t.keys.map (keyOf c)).Pairwise (· < ·) := by
    rw [spec_keys, List.pairwise_map, List.pairwise_map]
  have hl1 : (t.spec c).keys.length = t.keys.length := by rw [spec_keys, List.length_map]
  have hl2 : (t.spec c).kids.length = t.kids.length := by rw [spec_kids, List.length_map]
  have hnil : (t.spec c).kids = [] ↔ t.kids = [] := by rw [spec_kids, List.map_eq_nil_iff]
  constructor
  · rintro ⟨h1, h2, h3, h4, h5, h6⟩
    rw [hl1] at h1 h2
    rw [hl1, hl2, hnil] at h3
    refine ⟨h1, h2, h3, hpw.mp h4, fun i f k hf hk => ?_, fun i f k hf hk => ?_⟩
    · obtain ⟨v, q, g1, g2⟩ := kidOf hf
      obtain ⟨q', g3⟩ := keyOf' hk
      exact h5 i v _ _ g1 g2 g3
    · obtain ⟨v, q, g1, g2⟩ := kidOf hf
      obtain ⟨q', g3⟩ := keyOf' hk
      exact h6 i v _ _ g1 g2 g3
  · rintro ⟨h1, h2, h3, h4, h5, h6⟩
    exact ⟨by rw [hl1]; exact h1, by rw [hl1]; exact h2, by rw [hl1, hl2, hnil]; exact h3, hpw.mpr h4,
      fun i v f k g1 g2 g3 => h5 i _ _ (kidTo g1 g2) (keyTo g3), fun i v f k g1 g2 g3 => h6 i _ _ (kidTo g1 g2) (keyTo g3)⟩

theorem firsts_sorted {a b : List Bytes} (h : (checkInterleave a b).Pairwise (· < ·)) : a.Pairwise (· < ·) := by
  refine List.Pairwise.sublist ?_ h
  clear h
  induction a generalizing b with
  | nil => exact List.nil_sublist _
  | cons x a ih =>
    cases b with
    | nil => exact List.Sublist.refl _
    | cons y b => exact (List.Sublist.cons _ ih).cons_cons x

theorem allChecked_iff {c : List Bytes} {t : T} : AllChecked c t ↔ NodeChecked (t.spec c) ∧ ∀ u ∈ t.kids, AllChecked c u := by
  unfold AllChecked
  constructor
  · intro h
    refine ⟨h _ (mem_subtrees.mpr (.inl rfl)), fun u hu v hv => h v (mem_subtrees.mpr (.inr ⟨u.spec c, ?_, hv⟩))⟩
    rw [spec_kids]
    exact List.mem_map_of_mem hu
  · rintro ⟨h1, h2⟩ v hv
    rcases mem_subtrees.mp hv with rfl | ⟨k, hk, hv⟩
    · exact h1
    · rw [spec_kids] at hk
      obtain ⟨u, hu, rfl⟩ := List.mem_map.mp hk
      exact h2 u hu v hv

theorem ends_node : ∀ (fuel : Nat) (t : T) (s : St) (a : Nat), t.depth ≤ fuel → Sight s t → addrOf s t.ref = some a →
    Ends (checkNode fuel a) s (AllChecked s.core t) fun _ => True := by
  intro fuel
  induction fuel with
  | zero =>
    intro t s a hd
    obtain ⟨r, ks, ts⟩ := t
    rw [T.depth] at hd
    omega
  | succ fuel ih =>
    intro t s a hd h ha
    unfold checkNode
    have hn := h.node ha
    refine Ends.after (readNode_some hn) (Ext.refl h.wf) ?_
    have hl : t.node.children.length = t.kids.length := by obtain ⟨r, ks, ts⟩ := t; simp [T.node, T.kids]
    have hk : t.node.keys = t.keys := by obtain ⟨r, ks, ts⟩ := t; rfl
    dsimp only
    rw [hl, hk]
    have hspec : AllChecked s.core t → 4 ≤ t.keys.length ∧ t.keys.length ≤ 8 ∧
        (t.kids = [] ∨ t.kids.length = t.keys.length + 1) := by
      intro hall
      obtain ⟨h1, h2⟩ := allChecked_iff.mp hall
      obtain ⟨g1, g2, g3, _⟩ := (nodeChecked_spec (fun u hu => allChecked_ne (h2 u hu))).mp h1
      exact ⟨g1, g2, g3⟩
    by_cases c1 : MAX_KEYS < t.keys.length
    · rw [if_pos c1]
      exact Ends.panic h.wf fun hall => by have := (hspec hall).2.1; unfold MAX_KEYS at c1; omega
    rw [if_neg c1]
    by_cases c2 : t.keys.length < minKeys MAX_KEYS
    · rw [if_pos c2]
      exact Ends.panic h.wf fun hall => by
        have := (hspec hall).1
        have : minKeys MAX_KEYS = 4 := rfl
        omega
    rw [if_neg c2]
    by_cases c3 : t.kids.length ≠ 0 ∧ t.kids.length ≠ t.keys.length + 1
    · rw [if_pos c3]
      exact Ends.panic h.wf fun hall => by
        rcases (hspec hall).2.2 with h | h
        · exact c3.1 (by rw [h]; rfl)
        · exact c3.2 h
    rw [if_neg c3]
    have c1' : t.keys.length ≤ 8 := by unfold MAX_KEYS at c1; omega
    have c2' : 4 ≤ t.keys.length := by have : minKeys MAX_KEYS = 4 := rfl; omega
    have c3' : t.kids = [] ∨ t.kids.length = t.keys.length + 1 := by
      by_cases h0 : t.kids.length = 0
      · exact .inl (List.length_eq_zero_iff.mp h0)
      · exact .inr (by by_contra hx; exact c3 ⟨h0, hx⟩)
    obtain ⟨s1, h1, e1⟩ := checkKeys_run (n := t.node) t.keys 0 s h.wf hn (by rw [hk]; rfl) h.keys
    rw [List.range_eq_range', List.range_eq_range']
    refine Ends.after h1 e1 ?_
    refine Ends.bind (ends_sorted _ e1.wf) (fun hn hall => hn ?_) fun p1 _ s2 e2 _ => ?_
    · obtain ⟨h1, h2⟩ := allChecked_iff.mp hall
      exact ((nodeChecked_spec (fun u hu => allChecked_ne (h2 u hu))).mp h1).2.2.2.1
    have e12 := e1.trans e2
    refine Ends.bind (ends_kids (t := t) (fun u hu s' a' hr ha' => ih u s' a' (by have := T.depth_kid hu; omega) hr ha') t.kids 0 s2
      (h.ext e12) (e12.addr ha) rfl) (fun hn hall => hn ?_) fun p2 fs s3 e3 hfs => ?_
    · rw [e12.core]
      exact (allChecked_iff.mp hall).2
    rw [e12.core] at p2 hfs
    subst hfs
    have hspec2 := nodeChecked_spec (c := s.core) (t := t) (fun u hu => allChecked_ne (p2 u hu))
    have key : AllChecked s.core t ↔ (checkInterleave (t.kids.map (T.first s.core)) (t.keys.map (keyOf s.core))).Pairwise (· < ·) := by
      rw [allChecked_iff, hspec2]
      rcases c3' with c3' | c3'
      · rw [c3']
        simp only [List.map_nil, checkInterleave, List.getElem?_nil, reduceCtorEq, false_implies, implies_true, and_true,
          List.not_mem_nil, true_or, true_and]
        exact ⟨fun h => h.2.2, fun h => ⟨c2', c1', h⟩⟩
      · rw [interleave_sorted _ _ (by simpa using c3')]
        exact ⟨fun h => h.1.2.2.2, fun h => ⟨⟨c2', c1', .inr c3', h⟩, p2⟩⟩
    refine Ends.bind (ends_sorted _ e3.wf) (fun hn hall => hn (firsts_sorted (key.mp hall))) fun p3 _ s4 e4 _ => ?_
    exact (ends_sorted _ e4.wf).congr key.symm

theorem ends_rootKids {check : Nat → M Unit} {t : T} {a : Nat}
    (hc : ∀ u ∈ t.kids, ∀ (s : St) (a' : Nat), Sight s u → addrOf s u.ref = some a' → Ends (check a') s (AllChecked s.core u) fun _ => True) :
    ∀ (us : List T) (i : Nat) (s : St), Sight s t → addrOf s t.ref = some a → t.kids.drop i = us →
    Ends (checkRootKids check a (List.range' i us.length)) s (∀ u ∈ us, AllChecked s.core u) fun _ => True
  | [], i, s, h, _, _ => .inl ⟨by simp, (), s, rfl, Ext.refl h.wf, trivial⟩
  | u :: us, i, s, h, ha, hd => by
    have hu : t.kids[i]? = some u := by
      have := List.getElem?_drop (xs := t.kids) (i := i) (j := 0)
      rw [hd] at this
      simpa using this.symm
    have hm := List.mem_of_getElem? hu
    rw [List.length_cons, List.range'_succ]
    unfold checkRootKids
    obtain ⟨a', s1, h1, e1, ha'⟩ := h.child (site := "test/mod.rs:141 get child always works in tests") ha hu
    refine Ends.after h1 e1 ?_
    refine Ends.bind (hc u hm s1 a' ((h.ext e1).kid hm) ha') (fun hn hall => hn ?_) fun hp _ s3 e3 _ => ?_
    · rw [e1.core]
      exact hall u (by simp)
    have e13 := e1.trans e3
    refine (ends_rootKids hc us (i + 1) s3 (h.ext e13) (e13.addr ha) (by
      rw [← List.drop_drop, hd, List.drop_one, List.tail_cons])).congr ?_
    rw [e1.core] at hp
    rw [e13.core]
    constructor
    · intro h' v hv
      rcases List.mem_cons.mp hv with rfl | hv
      · exact hp
      · exact h' v hv
    · exact fun h' v hv => h' v (by simp [hv])

theorem getRoot_stored {s : St} {t : T} (h : Sight s t) (href : t.ref = ⟨s.core.length - 1, 0⟩) (h2 : 2 ≤ s.core.length) :
    ∃ a s', getRoot false s = (.ok (some a), s') ∧ Ext s s' ∧ addrOf s' t.ref = some a := by
  have hm := h.rep.node
  rw [href] at hm
  obtain ⟨a, s', h1, e, h3⟩ := loadRef_run h.wf hm
  refine ⟨a, s', ?_, e, by rw [href]; exact h3⟩
  unfold getRoot
  rw [bind_ok (version_run s), if_neg (by omega)]
  rw [bind_run] at h1 ⊢
  cases hb : blocksGet (s.core.length - 1) s with
  | mk r s1 =>
    rw [hb] at h1
    cases r with
    | error e => simp at h1
    | ok e =>
      simp only [] at h1 ⊢
      rw [bind_ok h1]
      rfl

theorem ends_tree {s : St} {t : T} (h : Sight s t) (href : t.ref = ⟨s.core.length - 1, 0⟩) (h2 : 2 ≤ s.core.length) :
    Ends checkTree s (Checked (t.spec s.core)) fun _ => True := by
  obtain ⟨a, s1, h1, e1, ha⟩ := getRoot_stored h href h2
  unfold checkTree
  refine Ends.after h1 e1 ?_
  have r1 := h.ext e1
  refine Ends.after (readNode_some (r1.node ha)) (Ext.refl e1.wf) ?_
  have hl : t.node.children.length = t.kids.length := by obtain ⟨r, ks, ts⟩ := t; simp [T.node, T.kids]
  have hk : t.node.keys = t.keys := by obtain ⟨r, ks, ts⟩ := t; rfl
  have hl1 : (t.spec s.core).keys.length = t.keys.length := by rw [spec_keys, List.length_map]
  have hl2 : (t.spec s.core).kids.length = t.kids.length := by rw [spec_kids, List.length_map]
  have hnil : (t.spec s.core).kids = [] ↔ t.kids = [] := by rw [spec_kids, List.map_eq_nil_iff]
  dsimp only
  rw [hl, hk]
  by_cases c1 : t.keys.length = 0 ∧ 0 < t.kids.length
  · rw [if_pos c1]
    exact Ends.panic e1.wf fun hall => by
      have := hall.top (by rw [Ne, hnil]; intro h0; rw [h0] at c1; simp at c1)
      omega
  rw [if_neg c1]
  by_cases c2 : MAX_KEYS < t.keys.length
  · rw [if_pos c2]
    exact Ends.panic e1.wf fun hall => by have := hall.most; unfold MAX_KEYS at c2; omega
  rw [if_neg c2]
  by_cases c3 : t.kids.length ≠ 0 ∧ t.kids.length ≠ t.keys.length + 1
  · rw [if_pos c3]
    exact Ends.panic e1.wf fun hall => by
      rcases hall.children with h | h
      · rw [hnil] at h
        exact c3.1 (by rw [h]; rfl)
      · rw [hl1, hl2] at h
        exact c3.2 h
  rw [if_neg c3]
  refine Ends.after (show descentFuel s1 = (.ok (stepBound s1.core), s1) from rfl) (Ext.refl e1.wf) ?_
  rw [List.range_eq_range']
  refine (ends_rootKids (t := t) (fun u hu s' a' hr ha' => ends_node _ u s' a' ?_ hr ha') t.kids 0 s1 r1 ha rfl).congr ?_
  · have := (r1.rep).depth_lt
    have := T.depth_kid hu
    omega
  rw [e1.core]
  constructor
  · intro hall
    refine ⟨fun h0 => ?_, ?_, ?_, fun v hv => ?_⟩
    · rw [Ne, hnil] at h0
      have : 0 < t.kids.length := List.length_pos_of_ne_nil h0
      rw [hl1]
      omega
    · rw [hl1]
      unfold MAX_KEYS at c2
      omega
    · rw [hnil, hl1, hl2]
      by_cases h0 : t.kids.length = 0
      · exact .inl (List.length_eq_zero_iff.mp h0)
      · exact .inr (by by_contra hx; exact c3 ⟨h0, hx⟩)
    · obtain ⟨r, ks, ts⟩ := t
      rw [T.spec, STree.proper] at hv
      obtain ⟨w, hw, hv⟩ := mem_below.mp hv
      obtain ⟨u, hu, rfl⟩ := List.mem_map.mp hw
      exact hall u hu v hv
  · intro hall u hu v hv
    refine hall.below v ?_
    obtain ⟨r, ks, ts⟩ := t
    rw [T.spec, STree.proper]
    exact mem_below.mpr ⟨u.spec s.core, List.mem_map_of_mem hu, hv⟩

end Hyperbee
