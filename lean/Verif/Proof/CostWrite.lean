import Verif.Proof.Cost
/-!
# How many blocks a write fetches
-/

namespace Hyperbee

/-- `m` leaves the cache alone. -/
def Frees {α : Type} (m : M α) : Prop := ∀ s, (m s).2.cache = s.cache

theorem Frees.costs {α : Type} {m : M α} (h : Frees m) : Costs 0 m := by
  intro s
  refine ⟨[], by simp, fun q hq => .inl ?_⟩
  rwa [h s] at hq

theorem Frees.pure {α : Type} (a : α) : Frees (Pure.pure a : M α) := fun _ => rfl
theorem Frees.throw {α : Type} (e : Err) : Frees (Hyperbee.throw e : M α) := fun _ => rfl
theorem Frees.bind {α β : Type} {m : M α} {f : α → M β} (hm : Frees m) (hf : ∀ a, Frees (f a)) : Frees (m >>= f) := by
  intro s
  rw [bind_run]
  have h1 := hm s
  cases hr : m s with
  | mk r s1 =>
    rw [hr] at h1
    cases r with
    | error e => exact h1
    | ok a => exact (hf a s1).trans h1
theorem Frees.orPanic {α : Type} (site : String) (o : Option α) : Frees (Hyperbee.orPanic site o) := by
  cases o
  · exact Frees.throw _
  · exact Frees.pure _
theorem Frees.readNode (a : Nat) : Frees (Hyperbee.readNode a) := by
  intro s; unfold Hyperbee.readNode; split <;> rfl
theorem Frees.writeNode (a : Nat) (n : Node) : Frees (Hyperbee.writeNode a n) := by
  intro s; unfold Hyperbee.writeNode; first | rfl | (split <;> rfl)
theorem Frees.alloc (n : Node) : Frees (Hyperbee.alloc n) := fun _ => rfl
theorem Frees.version : Frees Hyperbee.version := fun _ => rfl
theorem Frees.coreAppend (b : Bytes) : Frees (Hyperbee.coreAppend b) := by
  intro s; unfold Hyperbee.coreAppend; split <;> rfl

/-- Discharges goals made of the rules above. -/
macro "frees" "[" hs:term,* "]" : tactic => do
  let mut t ← `(tactic| fail)
  for h in hs.getElems do
    t ← `(tactic| first | exact $h | $t:tactic)
  `(tactic|
    repeat' (first
      | exact Frees.pure _
      | exact Frees.throw _
      | exact Frees.orPanic _ _
      | exact Frees.readNode _
      | exact Frees.writeNode _ _
      | exact Frees.alloc _
      | exact Frees.version
      | exact Frees.coreAppend _
      | $t:tactic
      | apply Frees.bind
      | split
      | dsimp only
      | intro _))

theorem frees_setChild (a i : Nat) (c : Child) : Frees (setChild a i c) := by
  unfold setChild; frees []

theorem frees_propagate : ∀ (path : NodePath) (ch : Changes) (c : Child), Frees (propagate ch path c)
  | [], _, _ => Frees.pure _
  | (a, i) :: path, ch, c => by
    unfold propagate
    exact (frees_setChild _ _ _).bind fun _ => frees_propagate path _ _

theorem frees_nodeInsert (a k : Nat) (cs : List Child) (i j : Nat) : Frees (nodeInsert a k cs i j) := by
  unfold nodeInsert; frees []

theorem frees_split (a : Nat) : Frees (split a) := by
  unfold Hyperbee.split; frees []

theorem frees_putLoop (m : Bool) : ∀ (path : NodePath) (ch : Changes) (k : Nat) (cs : List Child),
    Frees (putLoop m path ch k cs)
  | [], _, _, _ => by unfold putLoop; frees []
  | (a, i) :: path, ch, k, cs => by
    have ih := fun ch k cs => frees_putLoop m path ch k cs
    unfold putLoop
    frees [ih _ _ _, frees_nodeInsert _ _ _ _ _, frees_split _, frees_propagate _ _ _]

theorem frees_take (a seq : Nat) : Frees (takeChildrenWithSeq a seq) := by
  unfold takeChildrenWithSeq; frees []

theorem frees_reorderLoop (seq : Nat) (nodes : List Addr) : ∀ (fuel : Nat) (st : List (Addr × Nat)) (out : List Addr),
    Frees (reorderLoop seq nodes fuel st out)
  | 0, [], _ => by unfold reorderLoop; frees []
  | _ + 1, [], _ => by unfold reorderLoop; frees []
  | 0, _ :: _, _ => by unfold reorderLoop; frees []
  | fuel + 1, (a, i) :: st, out => by
    have ih := fun st out => frees_reorderLoop seq nodes fuel st out
    unfold reorderLoop
    frees [ih _ _, frees_take _ _]

theorem frees_readNodes : ∀ as, Frees (readNodes as)
  | [] => Frees.pure _
  | a :: as => by
    have := frees_readNodes as
    unfold readNodes
    frees [this]

theorem frees_addChanges (ch : Changes) : Frees (addChanges ch) := by
  unfold addChanges reorderNodes
  frees [frees_take _ _, frees_reorderLoop _ _ _ _ _, frees_readNodes _]

theorem frees_commit {α : Type} : ∀ p : Prepared α, Frees (commitPrepared p)
  | .done _ => Frees.pure _
  | .commit ch _ => by unfold commitPrepared; frees [frees_addChanges _]

/-! ## Repairs -/

theorem frees_donorIndex (side : Side) (fa i : Nat) : Frees (side.getDonorIndex fa i) := by
  unfold Side.getDonorIndex; frees []

theorem frees_rotate (side : Side) (fa i d j o : Nat) (ch : Changes) : Frees (side.rotate fa i d j o ch) := by
  unfold Side.rotate Side.getDonorKey Side.getDonorChild Side.swapDonorKeyInFather Side.insertDonations Hyperbee.isLeaf
  frees [frees_setChild _ _ _]

theorem frees_moveChildren (l r n : Nat) : Frees (Side.moveChildren l r n) := by
  unfold Side.moveChildren; frees []

theorem costs_rotate (side : Side) (fa i d o : Nat) (ch : Changes) : Costs 1 (side.maybeRotate fa i d o ch) := by
  unfold Side.maybeRotate
  refine (Costs.bind (a := 1) (b := 0) ?_ fun r => ?_).mono (by omega)
  · unfold Side.canRotate
    refine (Costs.bind (a := 0) (b := 1) (frees_donorIndex _ _ _).costs fun x => ?_).mono (by omega)
    split
    · exact Costs.pure.mono (by omega)
    · exact (Costs.bind (Costs.getChild _ _) fun _ => Frees.costs (by frees [])).mono (by omega)
  · apply Frees.costs
    frees [frees_rotate _ _ _ _ _ _ _]

theorem costs_merge (side : Side) (fa i d : Nat) (ch : Changes) : Costs 1 (side.maybeMerge fa i d ch) := by
  unfold Side.maybeMerge
  refine (Costs.bind (a := 0) (b := 1) (frees_donorIndex _ _ _).costs fun x => ?_).mono (by omega)
  split
  · exact Costs.pure.mono (by omega)
  · refine (Costs.bind (Costs.getChild _ _) fun _ => Frees.costs ?_).mono (by omega)
    frees [frees_moveChildren _ _ _]

theorem costs_repairOne (fa i d o : Nat) (ch : Changes) : Costs 4 (repairOne fa i d o ch) := by
  unfold repairOne
  refine (Costs.bind (a := 1) (b := 3) (costs_rotate _ _ _ _ _ _) fun r => ?_).mono (by omega)
  split
  · exact Costs.pure.mono (by omega)
  · refine (Costs.bind (a := 1) (b := 2) (costs_rotate _ _ _ _ _ _) fun r => ?_).mono (by omega)
    split
    · exact Costs.pure.mono (by omega)
    · refine (Costs.bind (a := 1) (b := 1) (costs_merge _ _ _ _ _) fun r => ?_).mono (by omega)
      split
      · exact Costs.pure.mono (by omega)
      · refine (Costs.bind (a := 1) (b := 0) (costs_merge _ _ _ _ _) fun r => Frees.costs ?_).mono (by omega)
        frees []

theorem costs_repairLoop (o : Nat) : ∀ (path : NodePath) (fa i d : Nat) (ch : Changes),
    Costs (4 * (path.length + 1)) (repairLoop o path fa i d ch)
  | path, fa, i, d, ch => by
    unfold repairLoop
    refine (Costs.bind (a := 4) (b := 4 * path.length) (costs_repairOne _ _ _ _ _) fun ch => ?_).mono (by omega)
    refine (Costs.bind (a := 0) (b := 4 * path.length) (Costs.readNode _) fun n => ?_).mono (by omega)
    split
    · exact Costs.mono (a := 0) (Frees.costs (by frees [])) (by omega)
    · split
      · exact Costs.mono (a := 0) (Frees.costs (by frees [])) (by omega)
      · split
        · exact Costs.mono (a := 0) (Frees.costs (by frees [])) (by omega)
        · rename_i fa' i' path' _ _
          exact (costs_repairLoop o path' fa' i' fa ch).mono (by simp)

theorem costs_delTail (ch : Changes) (path : NodePath) (bot : Nat) : Costs (4 * path.length + 1) (delTail ch path bot) := by
  unfold delTail
  refine (Costs.bind (a := 0) (b := 4 * path.length + 1) (Costs.readNode _) fun bn => ?_).mono (by omega)
  dsimp only
  split
  · refine Costs.bind (a := 4 * path.length + 1) (b := 0) ?_ fun r => Frees.costs ?_
    · unfold repair
      split
      · exact Costs.throw.mono (by omega)
      · exact (Costs.bind (Costs.getChild _ _) fun d => costs_repairLoop _ _ _ _ _ _).mono (by simp; omega)
    · frees [frees_propagate _ _ _]
  · refine Costs.mono (a := 0) (Frees.costs ?_) (by omega)
    frees [frees_propagate _ _ _]

/-- Every value `m` returns has `P`. -/
def Ens {α : Type} (P : α → Prop) (m : M α) : Prop := ∀ s x, (m s).1 = .ok x → P x

theorem Ens.bind {α β : Type} {P : α → Prop} {Q : β → Prop} {m : M α} {f : α → M β} (hm : Ens P m)
    (hf : ∀ a, P a → Ens Q (f a)) : Ens Q (m >>= f) := by
  intro s x h
  rw [bind_run] at h
  cases hr : m s with
  | mk r s1 =>
    rw [hr] at h
    cases r with
    | error e => cases h
    | ok a => exact hf a (hm s a (by rw [hr])) s1 x h

theorem Ens.pure {α : Type} {P : α → Prop} {a : α} (h : P a) : Ens P (Pure.pure a : M α) := by
  intro s x hx; cases hx; exact h

theorem Ens.any {α : Type} (m : M α) : Ens (fun _ => True) m := fun _ _ _ => trivial

/-! ## Searches -/

/-- A search in a subtree. -/
theorem nearest_sub {s : St} {h : Nat} {root : Bool} {t : T} {a : Nat} (key : LimitValue) (v : Vw s h t)
    (hg : GoodN root h t) (hw : SWF s) (hh : h ≤ s.core.length) (ha : addrOf s t.ref = some a) :
    ∃ m a' i fs n s', nearestNode a key s = (.ok (m, (a', i) :: fs.map Fr.step), s') ∧ Ext s s' ∧
      Grown (5 * h + 4) s s' ∧ Found s' key t m a' i fs n ∧ fs.length ≤ h := by
  obtain ⟨m, a', i, fs, n, s', h1, e1, hf⟩ := nearestNode_sub key hw hh v.rep v.coh v.shape v.srt v.dfd ha
  refine ⟨m, a', i, fs, n, s', h1, e1, ?_, hf, ?_⟩
  · have := nearestLoop_cost key h root (stepBound s.core) t s a [] hw v.rep v.coh hg v.srt v.dfd ha
    have hx : nearestNode a key s = nearestLoop key (stepBound s.core) a [] s := rfl
    rwa [← hx, h1] at this
  · have hg' : GoodN true h t := by
      cases root with
      | true => exact hg
      | false => exact hg.as_root
    obtain ⟨k, hk, _⟩ := CtxGood.unplug (fun f hf' => (hf.frs f hf').1) (hf.plug ▸ hg')
    omega

theorem replace_cost {s : St} {a i h : Nat} {ks : List Nat} {cs : List Child} {tl tr : T} (path : NodePath)
    (hw : SWF s) (hh : h ≤ s.core.length) (hheap : s.heap[a]? = some ⟨ks, cs⟩)
    (hl : cs[i]? = some tl.ref) (hr : cs[i + 1]? = some tr.ref) (vl : Vw s h tl) (vr : Vw s h tr)
    (gl : GoodN false h tl) (gr : GoodN false h tr) :
    Grown (2 * (5 * h + 5)) s (replaceRemovedInternalKey path a i s).2 ∧
      ∀ p, (replaceRemovedInternalKey path a i s).1 = .ok p → p.length ≤ h + path.length + 2 := by
  obtain ⟨al, s1, g1, e1, hal⟩ := getChild_run (i := i) (r := tl.ref) hw hheap hl vl.rep.node
  have c1 := Costs.getChild a i s
  rw [g1] at c1
  obtain ⟨ml, ll, il, fl, nl, s2, g2, e2, c2, hfl, hll⟩ := nearest_sub (.infinite .positive) (vl.ext hw e1) gl e1.wf
    (by rw [e1.core]; exact hh) hal
  have e12 := e1.trans e2
  obtain ⟨ar, s3, g3, e3, har⟩ := getChild_run (i := i + 1) (r := tr.ref) e2.wf (e12.get hheap) hr
    (by rw [e12.core]; exact vr.rep.node)
  have c3 := Costs.getChild a (i + 1) s2
  rw [g3] at c3
  obtain ⟨mr, lr, ir, fr, nr, s4, g4, e4, c4, hfr, hlr⟩ := nearest_sub (.infinite .negative)
    (vr.ext hw (e12.trans e3)) gr e3.wf (by rw [(e12.trans e3).core]; exact hh) har
  obtain ⟨n2, hn2⟩ : ∃ n, s2.heap[ll]? = some n :=
    ⟨_, (vl.ext hw e12 |>.coh |> fun hc => (hfl.node (vl.ext hw e12).rep hc).1)⟩
  obtain ⟨n4, hn4⟩ : ∃ n, s4.heap[lr]? = some n :=
    ⟨_, ((vr.ext hw ((e12.trans e3).trans e4)).coh |> fun hc => (hfr.node (vr.ext hw ((e12.trans e3).trans e4)).rep hc).1)⟩
  have c14 := ((c1.trans c2).trans c3).trans c4
  unfold replaceRemovedInternalKey
  simp only []
  rw [bind_ok g1, bind_ok g2]
  simp only [List.head?_cons, orPanic_some, pure_bind_run]
  rw [bind_ok (readNode_some hn2), bind_ok g3, bind_ok g4]
  simp only [List.head?_cons, orPanic_some, pure_bind_run]
  rw [bind_ok (readNode_some hn4)]
  constructor
  · refine (c14.trans (Frees.costs ?_ s4)).mono (by omega)
    frees []
  · intro p
    have tail : ∀ (x : Nat × Nat × NodePath), x.2.2.length ≤ h + 1 → Ens (fun p : NodePath => p.length ≤ h + path.length + 2) (do
        let n ← readNode a
        let ks ← orPanic "del.rs:65 keys.insert" (vecInsert n.keys i x.2.1)
        writeNode a { n with keys := ks }
        Pure.pure (x.2.2 ++ (a, x.1) :: path) : M NodePath) := by
      intro x hx
      refine Ens.bind (Ens.any _) fun n _ => ?_
      refine Ens.bind (Ens.any _) fun n _ => ?_
      refine Ens.bind (Ens.any _) fun _ _ => ?_
      exact Ens.pure (by simp only [List.length_append, List.length_cons]; omega)
    split
    · refine Ens.bind (Q := fun p : NodePath => p.length ≤ h + path.length + 2) (Ens.any _) (fun n _ => ?_) s4 p
      refine Ens.bind (Ens.any _) fun n _ => ?_
      refine Ens.bind (Ens.any _) fun _ _ => ?_
      exact Ens.bind (P := fun x => x.2.2.length ≤ h + 1) (Ens.pure (by simpa using hlr)) tail
    · refine Ens.bind (Q := fun p : NodePath => p.length ≤ h + path.length + 2) (Ens.any _) (fun n _ => ?_) s4 p
      refine Ens.bind (Ens.any _) fun n _ => ?_
      refine Ens.bind (Ens.any _) fun _ _ => ?_
      exact Ens.bind (P := fun x => x.2.2.length ≤ h + 1) (Ens.pure (by simpa using hll)) tail

/-! ## Whole writes -/

theorem getRoot_cost {s : St} (b : Bool) (h2 : 2 ≤ s.core.length) : Grown 1 s (getRoot b s).2 := by
  unfold getRoot
  rw [bind_ok (version_run s), if_neg (by omega)]
  unfold getTreeNode
  exact (Costs.bind (Costs.blocksGet _) fun e => Costs.bind Costs.orPanic fun r => Costs.pure) s

/-- A put fetches few blocks. -/
theorem put_cost {s : St} {H : Nat} {t : T} (ht : TreeAt s.core H t) (hw : SWF s) (hc : Coh s (· ∈ t.refs))
    (key : Bytes) (value : Option Bytes) (cas : Option KeyValueData → KeyValueData → Bool) :
    Grown (5 * H + 6) s (putCompareAndSwap key value cas s).2 := by
  obtain ⟨a, s1, h1, e1, ha⟩ := getRoot_run ht hw true
  have c1 : Grown 1 s s1 := by
    have := getRoot_cost true (s := s) ht.two
    rwa [h1] at this
  have ht1 : TreeAt s1.core H t := by rw [e1.core]; exact ht
  obtain ⟨m, a', i, fs, n, s2, h2, e2, hf⟩ := nearestNode_run (.finite key) ht1 e1.wf (e1.coh hw hc) ha
  have c2 : Grown (5 * H + 4) s1 s2 := by
    have := nearestLoop_cost (.finite key) H true (stepBound s1.core) t s1 a [] e1.wf ht1.rep (e1.coh hw hc) ht1.good
      ht1.srt ht1.dfd ha
    have hx : nearestNode a (.finite key) s1 = nearestLoop (.finite key) (stepBound s1.core) a [] s1 := rfl
    rwa [← hx, h2] at this
  have hp : Grown (5 * H + 6) s (putPrepare key value cas s).2 := by
    unfold putPrepare
    rw [bind_ok h1, bind_ok (version_run s1)]
    simp only []
    rw [bind_ok h2]
    dsimp only
    split
    · refine ((c1.trans c2).trans (Costs.bind (a := 0) (b := 1) Costs.orPanic (fun x => ?_) s2)).mono (by omega)
      refine (Costs.bind (a := 1) (b := 0) (Costs.getKeyValue _ _) fun _ => Frees.costs ?_).mono (by omega)
      frees [frees_putLoop _ _ _ _ _]
    · refine ((c1.trans c2).trans (Frees.costs ?_ s2)).mono (by omega)
      frees [frees_putLoop _ _ _ _ _]
  unfold putCompareAndSwap
  rw [bind_run]
  cases hr : putPrepare key value cas s with
  | mk r s' =>
    rw [hr] at hp
    cases r with
    | error e => exact hp
    | ok p => exact (hp.trans ((frees_commit p).costs s')).mono (by omega)

/-- A deletion fetches few blocks. -/
theorem del_cost {s : St} {H : Nat} {t : T} (ht : TreeAt s.core H t) (hw : SWF s) (hc : Coh s (· ∈ t.refs))
    (key : Bytes) (cas : KeyValueData → Bool) : Grown (19 * H + 7) s (delCompareAndSwap key cas s).2 := by
  obtain ⟨a, s1, h1, e1, ha⟩ := getRoot_run ht hw false
  have c1 : Grown 1 s s1 := by
    have := getRoot_cost false (s := s) ht.two
    rwa [h1] at this
  have ht1 : TreeAt s1.core H t := by rw [e1.core]; exact ht
  obtain ⟨m, a', i, fs, n, s2, h2, e2, hf⟩ := nearestNode_run (.finite key) ht1 e1.wf (e1.coh hw hc) ha
  have c2 : Grown (5 * H + 4) s1 s2 := by
    have := nearestLoop_cost (.finite key) H true (stepBound s1.core) t s1 a [] e1.wf ht1.rep (e1.coh hw hc) ht1.good
      ht1.srt ht1.dfd ha
    have hx : nearestNode a (.finite key) s1 = nearestLoop (.finite key) (stepBound s1.core) a [] s1 := rfl
    rwa [← hx, h2] at this
  have e12 := e1.trans e2
  have c12 := c1.trans c2
  have hp : Grown (19 * H + 7) s (delPrepare key cas s).2 := by
    unfold delPrepare
    rw [bind_ok h1]
    simp only []
    rw [bind_ok h2]
    cases m with
    | none => exact c12.mono (by omega)
    | some q =>
      have ht2 : TreeAt s2.core H t := by rw [e12.core]; exact ht
      obtain ⟨ka, kb, pre, post, hk1, hk2, hloc, hfl⟩ := hf.loc ht2
      obtain ⟨hn, _, _⟩ := hf.node ht2.rep (e12.coh hw hc)
      obtain ⟨hq1, _⟩ := hf.hit q rfl
      obtain ⟨b, hb⟩ := ht2.dfd q (by rw [hloc.eq]; simp)
      obtain ⟨s3, h3, e3⟩ := getKeyValue_run e2.wf hn (i := i) (q := q) hq1 hb
      have e13 := e12.trans e3
      have c3 : Grown 1 s2 s3 := by
        have := Costs.getKeyValue a' i s2
        rwa [h3] at this
      have c13 := c12.trans c3
      simp only [List.head?_cons, orPanic_some, pure_bind_run]
      rw [bind_ok h3]
      split
      · exact c13.mono (by omega)
      · suffices hd : Grown (14 * H + 1) s3 (delChanges key ((a', i) :: fs.map Fr.step) s3).2 by
          rw [bind_run]
          cases hr : delChanges key ((a', i) :: fs.map Fr.step) s3 with
          | mk r s' =>
            rw [hr] at hd
            cases r with
            | error e => exact (c13.trans hd).mono (by omega)
            | ok ch => exact (c13.trans hd).mono (by omega)
        have hok : ∀ f ∈ fs, f.OK := fun f h => (hf.frs f h).1
        obtain ⟨h, hH, hctx, hgn⟩ := CtxGood.unplug hok (hf.plug ▸ ht.good)
        have hop : Op s.core s.io s3 (· ∈ t.refs) [] :=
          ⟨e13.core, e13.io, e13.wf, e13.coh hw hc, List.nodup_nil, by simp, by simp⟩
        obtain ⟨R, o1, o2, o3, o4, o5, o6, o7, _⟩ := node_own (fs := fs) (n := n) (a := a') hop
          (by rw [hf.plug]; exact ht.rep) (by rw [hf.plug]; exact ht.nodup)
          (by rw [hf.plug]; exact fun r hr => hr) (fun f h => e3.addr (hf.frs f h).2) (e3.addr hf.addr)
        rw [List.append_nil] at o1
        have hflat : t.flat = preC fs ++ n.flat ++ postC fs := by
          rw [← hf.plug, flat_plug hok]
        obtain ⟨r, ks, ts⟩ := n
        simp only [T.kids] at o3 o4 o6 hfl
        simp only [T.keys] at hk1
        simp only [Option.toList_some, List.append_assoc, List.singleton_append] at hk1
        subst hk1
        subst hk2
        have hnode : s3.heap[a']? = some ⟨ka ++ q :: kb, ts.map T.ref⟩ := o7
        have hgn' := goodN_mk.mp hgn
        have hlt := o1.lt a' (by simp)
        have hself : (s3.wr a' ⟨ka ++ kb, ts.map T.ref⟩).heap[a']? = some ⟨ka ++ kb, ts.map T.ref⟩ :=
          St.wr_self hlt _
        have hop1 : Op s.core s.io (s3.wr a' ⟨ka ++ kb, ts.map T.ref⟩) R (a' :: fs.map (·.a)) :=
          o1.write (by simp) _
        have c4 : Grown 0 s3 (s3.wr a' ⟨ka ++ kb, ts.map T.ref⟩) := ⟨[], by simp, fun _ hq => .inl hq⟩
        rw [delChanges_eq key a' ka.length _ s3 (ka ++ kb) q _ hnode (vecRemove_mid ka kb q)]
        by_cases hts0 : ts = []
        · subst hts0
          rw [if_pos (by simp)]
          refine (c4.trans (costs_delTail _ _ _ _)).mono ?_
          rw [List.length_map]; omega
        · rw [if_neg (by simpa using hts0)]
          obtain ⟨h', rfl⟩ : ∃ h', h = h' + 1 := by
            cases h with
            | zero => exact absurd hgn'.2 hts0
            | succ h => exact ⟨h, rfl⟩
          have hklen := hgn'.2.1
          obtain ⟨A, tl, tr, B, hts, hA, hB⟩ : ∃ A tl tr B, ts = A ++ tl :: tr :: B ∧
              A.length = ka.length ∧ B.length = kb.length := by
            have hl : ts.length = ka.length + kb.length + 2 := by rw [hklen]; simp; omega
            refine ⟨ts.take ka.length, ts[ka.length]'(by omega), ts[ka.length + 1]'(by omega),
              ts.drop (ka.length + 2), ?_, by simp; omega, by simp; omega⟩
            rw [List.getElem_cons_drop (as := ts) (i := ka.length + 1), List.getElem_cons_drop,
              List.take_append_drop]
          subst hts
          have hflq : flatL (ka ++ q :: kb) (A ++ tl :: tr :: B) = flatL ka (A ++ [tl]) ++ q :: flatL kb (tr :: B) := by
            have := flatL_split (lks := ka) (lts := A ++ [tl]) (by simp [hA]) q kb (tr :: B)
            simpa using this
          have hsub : (flatL (ka ++ q :: kb) (A ++ tl :: tr :: B)).Sublist t.flat := by
            rw [hflat, T.flat]
            exact (List.sublist_append_right _ _).trans (List.sublist_append_left _ _)
          have hsubl : tl.flat.Sublist t.flat := by
            refine List.Sublist.trans ?_ hsub
            rw [hflq]
            have := flatL_hole (ka := ka) (kb := []) (A := A) (B := []) hA rfl tl
            rw [List.append_nil] at this
            rw [this]
            exact ((List.sublist_append_right _ _).trans (List.sublist_append_left _ _)).trans
              (List.sublist_append_left _ _)
          have hsubr : tr.flat.Sublist t.flat := by
            refine List.Sublist.trans ?_ hsub
            rw [hflq, flatL_post hB]
            exact ((List.sublist_append_left _ _).trans (List.sublist_cons_self _ _)).trans
              (List.sublist_append_right _ _)
          have hRl : ∀ x ∈ tl.refs, R x := fun x hx => o3 x (mem_refsL.mpr ⟨tl, by simp, hx⟩)
          have hRr : ∀ x ∈ tr.refs, R x := fun x hx => o3 x (mem_refsL.mpr ⟨tr, by simp, hx⟩)
          have hcore := hop1.core
          have gl : GoodN false h' tl := hgn'.2.2 tl (by simp)
          have gr : GoodN false h' tr := hgn'.2.2 tr (by simp)
          have hH' := ht.height_lt
          obtain ⟨d1, d2⟩ := replace_cost (h := h') (i := ka.length) (tl := tl) (tr := tr) (fs.map Fr.step) hop1.wf
            (by rw [hcore]; omega) hself (by simp [← hA]) (by simp [← hA])
            ⟨by rw [hcore]; exact o6 tl (by simp), hop1.coh.mono hRl, gl.shape,
              by rw [hcore]; exact List.Pairwise.sublist hsubl ht.srt,
              by rw [hcore]; exact fun x hx => ht.dfd x (hsubl.subset hx)⟩
            ⟨by rw [hcore]; exact o6 tr (by simp), hop1.coh.mono hRr, gr.shape,
              by rw [hcore]; exact List.Pairwise.sublist hsubr ht.srt,
              by rw [hcore]; exact fun x hx => ht.dfd x (hsubr.subset hx)⟩ gl gr
          rw [bind_run]
          cases hr : replaceRemovedInternalKey (fs.map Fr.step) a' ka.length
              (s3.wr a' ⟨ka ++ kb, (A ++ tl :: tr :: B).map T.ref⟩) with
          | mk rr s4 =>
            rw [hr] at d1 d2
            cases rr with
            | error e => exact (c4.trans d1).mono (by omega)
            | ok p =>
              have hl := d2 p rfl
              rw [List.length_map] at hl
              cases p with
              | nil => exact (c4.trans d1).mono (by omega)
              | cons x p =>
                rw [List.length_cons] at hl
                exact ((c4.trans d1).trans (costs_delTail _ _ _ _)).mono (by omega)
  unfold delCompareAndSwap
  rw [bind_run]
  cases hr : delPrepare key cas s with
  | mk r s' =>
    rw [hr] at hp
    cases r with
    | error e => exact hp
    | ok p => exact (hp.trans ((frees_commit p).costs s')).mono (by omega)

end Hyperbee
