import Verif.Proof.Stream
/-!
# Traversals with any configuration

The fields of `TraverseConfig` are public, and `Prefixed::traverse` makes configurations the builder
never saw.  A traversal with such a configuration may stop early or start late, but it does not
fail, and it yields stored entries only.
-/

namespace Hyperbee

/-- The side of a configuration that decides where the iterator of a node starts. -/
def TraverseConfig.oneSided (c : TraverseConfig) : TraverseConfig :=
  if c.reversed then { c with minValue := .infinite .negative, minInclusive := true }
  else { c with maxValue := .infinite .positive, maxInclusive := true }

theorem TraverseConfig.oneSided_iter (c : TraverseConfig) (a : Addr) (nk nc : Nat) :
    makeChildKeyIndexIter c a nk nc = makeChildKeyIndexIter c.oneSided a nk nc := by
  obtain ⟨mn, mi, mx, xi, rv⟩ := c
  cases rv <;> rfl

theorem TraverseConfig.oneSided_sound (c : TraverseConfig) : c.oneSided.Sound := by
  obtain ⟨mn, mi, mx, xi, rv⟩ := c
  intro k
  cases rv with
  | true =>
    simp only [TraverseConfig.oneSided, if_true, TraverseConfig.inBounds, InRange, belowMax_iff, LimitValue.cmp,
      InfiniteKeys.cmp, AboveMin, true_and]
    cases h : LimitValue.cmp mx k <;> unfold LimitValue.cmp InfiniteKeys.cmp at h <;> simp_all
  | false =>
    simp only [TraverseConfig.oneSided, Bool.false_eq_true, if_false, TraverseConfig.inBounds, InRange, aboveMin_iff,
      LimitValue.cmp, InfiniteKeys.cmp, BelowMax, and_true]
    cases h : LimitValue.cmp mn k <;> unfold LimitValue.cmp InfiniteKeys.cmp at h <;> simp_all

theorem TraverseConfig.oneSided_start (c : TraverseConfig) (k : Bytes) : StartOK c.oneSided k ↔ StartOK c k := by
  obtain ⟨mn, mi, mx, xi, rv⟩ := c
  cases rv <;> rfl

/-- The keys of its node that a frame has before it lie on the right side of the bound the traversal
starts from. -/
def Onside (c : List Bytes) (conf : TraverseConfig) (n : T) (f : Frame) : Prop :=
  (∀ is, f.iter = some is → ∀ j ∈ is, j % 2 = 1 → ∀ x, n.keys[j / 2]? = some x → StartOK conf (keyOf c x)) ∧
  (∀ i b, f.nextKey = some (i, b) → ∀ x, n.keys[i]? = some x → StartOK conf (keyOf c x))

theorem Onside.same {c : List Bytes} {conf : TraverseConfig} {n : T} {f f' : Frame} (h : Onside c conf n f)
    (h1 : f'.iter = f.iter) (h2 : f'.nextKey = f.nextKey ∨ f'.nextKey = none) : Onside c conf n f' := by
  refine ⟨fun is hi => h.1 is (by rw [← h1]; exact hi), fun i b hk => ?_⟩
  rcases h2 with h2 | h2
  · exact h.2 i b (by rw [← h2]; exact hk)
  · rw [h2] at hk; cases hk

/-- A frame of a stream over (part of) the tree `t`, in order. -/
def FrameOK (s : St) (conf : TraverseConfig) (t : T) (f : Frame) : Prop :=
  ∃ h n, Vw s h n ∧ addrOf s n.ref = some f.root ∧ (∀ q ∈ n.flat, q ∈ t.flat) ∧ f.config = conf ∧
    (f.nkc = none ∨ f.nkc = some (n.keys.length, n.kids.length)) ∧
    (f.iter = none → f.iterFut ≠ some true) ∧
    (∀ is, f.iter = some is → ∀ j ∈ is, if j % 2 = 0 then j / 2 < n.kids.length else j / 2 < n.keys.length) ∧
    (∀ i b, f.nextKey = some (i, b) → b = false ∧ i < n.keys.length) ∧
    (∀ i, f.nextChild = some i → i < n.kids.length) ∧ Onside s.core conf n f

def Safe (s : St) (conf : TraverseConfig) (t : T) (fs : List Frame) : Prop :=
  fs ≠ [] ∧ ∀ f ∈ fs, FrameOK s conf t f

theorem FrameOK.ext {s s' : St} {conf : TraverseConfig} {t : T} {f : Frame} (h : FrameOK s conf t f) (hw : SWF s)
    (e : Ext s s') : FrameOK s' conf t f := by
  obtain ⟨h, n, v, a, r⟩ := h
  rw [← e.core] at r
  exact ⟨h, n, v.ext hw e, e.addr a, r⟩

theorem Safe.ext {s s' : St} {conf : TraverseConfig} {t : T} {fs : List Frame} (h : Safe s conf t fs) (hw : SWF s)
    (e : Ext s s') : Safe s' conf t fs := ⟨h.1, fun f hf => (h.2 f hf).ext hw e⟩

def SafePost (s s' : St) (conf : TraverseConfig) (t : T) (fs' : List Frame) : PollR → Prop
  | .pending _ _ => Safe s' conf t fs'
  | .ready none _ => True
  | .ready (some (x, _)) _ => Safe s' conf t fs' ∧
      ∃ q ∈ t.flat, x = .ok (kvOf s.core q) ∧ conf.inBounds (keyOf s.core q) = true

theorem pollSetup_safe {s : St} (hw : SWF s) {conf : TraverseConfig} {t : T} {f : Frame} (hf : FrameOK s conf t f)
    (hk : f.nextKey = none) (hc : f.nextChild = none) (ready : Bool) :
    ∃ r fs' s', pollSetup ready f s = (.ok (r, fs'), s') ∧ Ext s s' ∧ SafePost s s' conf t fs' r := by
  obtain ⟨h, n, v, ha, hsub, hconf, hnkc, hfut, hiter, _, _, hgo⟩ := hf
  obtain ⟨cf, rt, nf, nk, itf, it, nky, nch⟩ := f
  simp only at ha hconf hk hc hnkc hfut hiter
  subst hk hc hconf
  have one : ∀ {s' : St} {f' : Frame}, FrameOK s' cf t f' → Safe s' cf t [f'] := by
    intro s' f' h
    exact ⟨by simp, fun g hg => by rw [List.mem_singleton] at hg; subst hg; exact h⟩
  unfold pollSetup
  rcases hnkc with rfl | rfl
  · simp only []
    cases nf with
    | false =>
      refine ⟨_, _, s, rfl, Ext.refl hw, one ?_⟩
      exact ⟨h, n, v, ha, hsub, rfl, .inl rfl, hfut, hiter, (fun _ _ h => by cases h), (fun _ h => by cases h), hgo.same rfl (.inl rfl)⟩
    | true =>
      rw [if_neg (by simp)]
      cases ready with
      | false =>
        refine ⟨_, _, s, rfl, Ext.refl hw, one ?_⟩
        exact ⟨h, n, v, ha, hsub, rfl, .inl rfl, hfut, hiter, (fun _ _ h => by cases h), (fun _ h => by cases h), hgo.same rfl (.inl rfl)⟩
      | true =>
        rw [if_neg (by simp), bind_ok (readNode_some (v.heap ha))]
        refine ⟨_, _, s, rfl, Ext.refl hw, one ?_⟩
        refine ⟨h, n, v, ha, hsub, rfl, .inr ?_, hfut, hiter, (fun _ _ h => by cases h), (fun _ h => by cases h), hgo.same rfl (.inl rfl)⟩
        obtain ⟨r, ks, ts⟩ := n
        simp [T.node, T.keys, T.kids]
  · simp only []
    cases it with
    | none =>
      simp only []
      rcases itf with _ | done
      · refine ⟨_, _, s, rfl, Ext.refl hw, one ?_⟩
        exact ⟨h, n, v, ha, hsub, rfl, .inr rfl, (fun _ => by simp), hiter, (fun _ _ h => by cases h), (fun _ h => by cases h), hgo.same rfl (.inl rfl)⟩
      · obtain rfl : done = false := by
          cases done with
          | false => rfl
          | true => exact absurd rfl (hfut rfl)
        cases ready with
        | false =>
          refine ⟨_, _, s, rfl, Ext.refl hw, one ?_⟩
          exact ⟨h, n, v, ha, hsub, rfl, .inr rfl, hfut, hiter, (fun _ _ h => by cases h), (fun _ h => by cases h), hgo.same rfl (.inl rfl)⟩
        | true =>
          simp only []
          rw [if_neg (by simp)]
          have hn := v.heap ha
          obtain ⟨is, s', h1, e1, hwalk⟩ := makeIter_run hw hn cf.oneSided cf.oneSided_sound (ts := n.kids)
            (by cases n; simp [T.node, T.kids]) (by cases n; exact v.len) (by cases n; exact v.srt)
            (by cases n; exact v.srtKeys) (by cases n; exact v.dfdKeys)
          have hlen : n.node.keys.length = n.keys.length ∧ n.node.children.length = n.kids.length ∧ n.node.keys = n.keys := by
            cases n; simp [T.node, T.keys, T.kids]
          rw [hlen.1, hlen.2.1, ← cf.oneSided_iter] at h1
          rw [hlen.2.2] at hwalk
          rw [bind_ok (tryResult_ok h1)]
          refine ⟨_, _, s', rfl, e1, one ?_⟩
          refine ⟨h, n, v.ext hw e1, e1.addr ha, hsub, rfl, .inr rfl, (fun h => by cases h), ?_,
            (fun _ _ h => by cases h), (fun _ h => by cases h), ?_, (fun _ _ h => by cases h)⟩
          · intro is' hi
            cases hi
            exact hwalk.valid
          · intro is' hi j hj ho x hx
            cases hi
            rw [e1.core]
            refine (cf.oneSided_start _).mp ((hwalk.start (j / 2) x hx).mp ?_)
            rw [show 2 * (j / 2) + 1 = j by omega]
            exact hj
    | some is =>
      cases is with
      | nil => exact ⟨_, _, s, rfl, Ext.refl hw, trivial⟩
      | cons j is =>
        have hv := hiter _ rfl j (by simp)
        have hrest : ∀ is', some is = some is' → ∀ j ∈ is', if j % 2 = 0 then j / 2 < n.kids.length else j / 2 < n.keys.length := by
          intro is' e
          cases e
          exact fun j hj => hiter _ rfl j (List.mem_cons_of_mem _ hj)
        have hgo' : ∀ is', some is = some is' → ∀ j ∈ is', j % 2 = 1 → ∀ x, n.keys[j / 2]? = some x →
            StartOK cf (keyOf s.core x) := by
          intro is' e
          cases e
          exact fun j hj => hgo.1 _ rfl j (List.mem_cons_of_mem _ hj)
        have hsh : j >>> 1 = j / 2 := by simp [Nat.shiftRight_succ]
        by_cases hj : j % 2 = 0
        · simp only [hj, if_true]
          refine ⟨_, _, s, rfl, Ext.refl hw, one ?_⟩
          rw [if_pos hj] at hv
          refine ⟨h, n, v, ha, hsub, rfl, .inr rfl, (fun h => by cases h), hrest, (fun _ _ h => by cases h), ?_, hgo',
            (fun _ _ h => by cases h)⟩
          intro i hi
          cases hi
          omega
        · simp only [hj, if_false]
          refine ⟨_, _, s, rfl, Ext.refl hw, one ?_⟩
          rw [if_neg hj] at hv
          refine ⟨h, n, v, ha, hsub, rfl, .inr rfl, (fun h => by cases h), hrest, ?_, (fun _ h => by cases h), hgo', ?_⟩
          · intro i b hi
            cases hi
            exact ⟨rfl, by omega⟩
          · intro i b hi x hx
            cases hi
            exact hgo.1 _ rfl j (by simp) (by omega) x (by rw [← hsh]; exact hx)

theorem poll_safe {conf : TraverseConfig} {t : T} (ready : Bool) : ∀ (fs : List Frame) {s : St}, SWF s →
    Safe s conf t fs → ∃ r fs' s', poll ready fs s = (.ok (r, fs'), s') ∧ Ext s s' ∧ SafePost s s' conf t fs' r := by
  intro fs
  induction fs with
  | nil => intro s _ h; exact absurd rfl h.1
  | cons f rest ih =>
    intro s hw hsafe
    have hf := hsafe.2 f (by simp)
    obtain ⟨h, n, v, ha, hsub, hconf, hnkc, hfut, hiter, hkey, hchild, hgo⟩ := id hf
    unfold poll
    cases hk : f.nextKey with
    | some p =>
      obtain ⟨i, b⟩ := p
      obtain ⟨rfl, hi⟩ := hkey i b hk
      simp only []
      rw [if_neg (by simp)]
      cases ready with
      | false => exact ⟨_, _, s, rfl, Ext.refl hw, hsafe⟩
      | true =>
        rw [if_neg (by simp)]
        have hn := v.heap ha
        have hkeys : n.node.keys = n.keys := by cases n; rfl
        have hq : n.keys[i]? = some n.keys[i] := List.getElem?_eq_getElem hi
        obtain ⟨bk, hb⟩ := v.dfdKeys n.keys[i] (List.getElem_mem hi)
        obtain ⟨s', h7, e7⟩ := getKeyValue_run hw hn (i := i) (q := n.keys[i]) (by rw [hkeys]; exact hq) hb
        rw [bind_ok (tryResult_ok h7)]
        simp only []
        cases hin : f.config.inBounds (keyOf s.core n.keys[i]) with
        | false => exact ⟨_, _, s', rfl, e7, trivial⟩
        | true =>
          rw [if_neg (by simp)]
          refine ⟨_, _, s', rfl, e7, ⟨by simp, ?_⟩, n.keys[i], ?_, rfl, by rw [← hconf]; exact hin⟩
          · intro g hg
            rcases List.mem_cons.mp hg with rfl | hg
            · exact ⟨h, n, v.ext hw e7, e7.addr ha, hsub, hconf, hnkc, hfut, hiter, (fun _ _ h => by cases h), hchild,
                by rw [e7.core]; exact hgo.same rfl (.inr rfl)⟩
            · exact (hsafe.2 g (List.mem_cons_of_mem _ hg)).ext hw e7
          · exact hsub _ (by rw [T.flat_eq]; exact mem_flatL (.inl (List.getElem_mem hi)))
    | none =>
      simp only []
      cases hc : f.nextChild with
      | some i =>
        simp only []
        cases ready with
        | false => exact ⟨_, _, s, rfl, Ext.refl hw, hsafe⟩
        | true =>
          rw [if_neg (by simp)]
          have hi := hchild i hc
          have hn := v.heap ha
          have hkid : n.kids[i]? = some n.kids[i] := List.getElem?_eq_getElem hi
          have hch : n.node.children[i]? = some n.kids[i].ref := by
            have : n.node.children = n.kids.map T.ref := by cases n; rfl
            rw [this, List.getElem?_map, hkid]; rfl
          obtain ⟨h', vt⟩ := v.kid hkid
          obtain ⟨a', s', h7, e7, ha'⟩ := getChild_run hw hn hch vt.rep.node
          rw [bind_ok (tryResult_ok h7)]
          simp only []
          refine ⟨_, _, s', rfl, e7, by simp, ?_⟩
          intro g hg
          rcases List.mem_cons.mp hg with rfl | hg
          · exact ⟨h, n, v.ext hw e7, e7.addr ha, hsub, hconf, hnkc, hfut, hiter,
              (fun i b h => hkey i b (by rw [hk]; exact h)), (fun _ h => by cases h), by rw [e7.core]; exact hgo.same rfl (.inl hk.symm)⟩
          · rw [List.mem_singleton] at hg
            subst hg
            refine ⟨h', n.kids[i], vt.ext hw e7, ha', ?_, hconf, .inl rfl, (fun _ => by simp [Frame.new]),
              (fun _ h => by cases h), (fun _ _ h => by cases h), (fun _ h => by cases h),
              (fun _ h => by cases h), (fun _ _ h => by cases h)⟩
            intro q hq
            refine hsub q ?_
            rw [T.flat_eq]
            exact mem_flatL (.inr ⟨_, List.getElem_mem hi, hq⟩)
      | none =>
        simp only []
        cases rest with
        | nil => exact pollSetup_safe hw hf hk hc ready
        | cons c cs =>
          obtain ⟨r, fs', s', h1, e1, hp⟩ := ih hw ⟨by simp, fun g hg => hsafe.2 g (List.mem_cons_of_mem _ hg)⟩
          simp only []
          rw [bind_ok h1]
          have hf' := hf.ext hw e1
          cases r with
          | pending woken waiting =>
            refine ⟨_, _, s', rfl, e1, by simp, ?_⟩
            intro g hg
            rcases List.mem_cons.mp hg with rfl | hg
            · exact hf'
            · exact hp.2 g hg
          | ready item woken =>
            cases item with
            | none =>
              refine ⟨_, _, s', rfl, e1, by simp, ?_⟩
              intro g hg
              rw [List.mem_singleton] at hg
              subst hg; exact hf'
            | some it =>
              obtain ⟨it1, it2⟩ := it
              obtain ⟨hp1, hp2⟩ := hp
              refine ⟨_, _, s', rfl, e1, ⟨by simp, ?_⟩, hp2⟩
              intro g hg
              rcases List.mem_cons.mp hg with rfl | hg
              · exact hf'
              · exact hp1.2 g hg

/-- Driving a stream with any configuration, each item passed through a function that may fail. -/
theorem drive_safe {β : Type} {post : Except Err KeyValueData → M β} {g : Except Err KeyValueData → Except Err β}
    (hpost : ∀ x s, post x s = (g x, s)) {c : List Bytes} {conf : TraverseConfig} {t : T} :
    ∀ (sched : List Bool) {s : St} {fs : List Frame}, s.core = c → SWF s → Safe s conf t fs →
    ∃ res s', drive post sched fs s = (res, s') ∧ Ext s s' ∧
      ((∃ (ys : List β) (fin : Option (List Frame)) (qs : List Nat), res = .ok (ys, fin) ∧ (∀ q ∈ qs, q ∈ t.flat ∧ conf.inBounds (keyOf c q) = true) ∧
          qs.map (fun q => g (.ok (kvOf c q))) = ys.map Except.ok) ∨
       (∃ e, ∃ q ∈ t.flat, res = .error e ∧ g (.ok (kvOf c q)) = .error e ∧ conf.inBounds (keyOf c q) = true)) := by
  intro sched
  induction sched with
  | nil =>
    intro s fs _ hw _
    exact ⟨_, s, rfl, Ext.refl hw, .inl ⟨[], some fs, [], rfl, by simp, rfl⟩⟩
  | cons r rs ih =>
    intro s fs hcore hw hsafe
    obtain ⟨p, fs', s1, h1, e1, hp⟩ := poll_safe r fs hw hsafe
    have hcore1 : s1.core = c := by rw [e1.core, hcore]
    unfold drive
    rw [bind_ok h1]
    cases p with
    | pending woken waiting =>
      obtain ⟨res, s2, h2, e2, hr⟩ := ih hcore1 e1.wf hp
      exact ⟨res, s2, h2, e1.trans e2, hr⟩
    | ready item woken =>
      cases item with
      | none => exact ⟨_, s1, rfl, e1, .inl ⟨[], none, [], rfl, by simp, rfl⟩⟩
      | some it =>
        obtain ⟨x, a⟩ := it
        obtain ⟨hp1, q, hq, rfl, hin⟩ := hp
        rw [hcore] at hin ⊢
        simp only []
        have hx := hpost (.ok (kvOf c q)) s1
        cases hg : g (.ok (kvOf c q)) with
        | error e =>
          rw [hg] at hx
          exact ⟨_, s1, bind_error hx, e1, .inr ⟨e, q, hq, rfl, hg, hin⟩⟩
        | ok y =>
          rw [hg] at hx
          rw [bind_ok hx]
          obtain ⟨res, s2, h2, e2, hr⟩ := ih hcore1 e1.wf hp1
          rcases hr with ⟨ys, fin, qs, rfl, h3, h4⟩ | ⟨e, q', hq', rfl, hg'⟩
          · rw [bind_ok h2]
            refine ⟨_, s2, rfl, e1.trans e2, .inl ⟨y :: ys, fin, q :: qs, rfl, ?_, ?_⟩⟩
            · intro q' hq'
              rcases List.mem_cons.mp hq' with rfl | hq'
              · exact ⟨hq, hin⟩
              · exact h3 q' hq'
            · simp only [List.map_cons, hg, h4]
          · rw [bind_error h2]
            exact ⟨_, s2, rfl, e1.trans e2, .inr ⟨e, q', hq', rfl, hg'⟩⟩

theorem traverse_safe {s : St} {H : Nat} {t : T} (ht : TreeAt s.core H t) (hw : SWF s)
    (hc : Coh s (· ∈ t.refs)) (conf : TraverseConfig) :
    ∃ fs s', traverse conf s = (.ok fs, s') ∧ Ext s s' ∧ Safe s' conf t fs := by
  obtain ⟨a, s1, h1, e1, ha⟩ := getRoot_run ht hw false
  refine ⟨[Frame.new a conf], s1, ?_, e1, by simp, ?_⟩
  · unfold traverse
    rw [bind_ok h1]
    rfl
  · intro g hg
    rw [List.mem_singleton] at hg
    subst hg
    exact ⟨H, t, (ht.vw hc).ext hw e1, ha, fun _ h => h, rfl, .inl rfl, (fun _ => by simp [Frame.new]),
      (fun _ h => by cases h), (fun _ _ h => by cases h), (fun _ h => by cases h),
      (fun _ h => by cases h), (fun _ _ h => by cases h)⟩

end Hyperbee
