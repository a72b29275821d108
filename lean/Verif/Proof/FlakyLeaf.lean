import Verif.Proof.Flaky
import Verif.Proof.Share
import Verif.Proof.STree
/-!
# Deletions from leaves that can spare a key, with reads that fail

Once such a deletion has begun to edit nodes it reads no more blocks.
-/

namespace Hyperbee

/-! ## The node a key is in -/

theorem flatL_perm : ∀ (ks : List Nat) (ts : List T), (flatL ks ts).Perm (ks ++ ts.flatMap T.flat)
  | ks, [] => by rw [flatL_nil]; simp
  | [], t :: ts => by
    simp only [flatL, List.flatMap_cons, List.nil_append]
    exact (flatL_perm [] ts).append_left _
  | k :: ks, t :: ts => by
    simp only [flatL, List.flatMap_cons, List.cons_append]
    refine (List.perm_middle).trans (List.Perm.cons k ?_)
    refine ((flatL_perm ks ts).append_left t.flat).trans ?_
    rw [← List.append_assoc, ← List.append_assoc]
    exact List.perm_append_comm.append_right _

theorem pairwise_mem {R : α → α → Prop} {l : List α} (h : l.Pairwise R) {x y : α} (hx : x ∈ l) (hy : y ∈ l) (hne : x ≠ y) :
    R x y ∨ R y x := by
  induction h with
  | nil => cases hx
  | cons h1 _ ih =>
    rcases List.mem_cons.mp hx with rfl | hx'
    · rcases List.mem_cons.mp hy with rfl | hy
      · exact absurd rfl hne
      · exact .inl (h1 y hy)
    · rcases List.mem_cons.mp hy with rfl | hy
      · exact .inr (h1 x hx')
      · exact ih hx' hy

theorem Sub.flat {u t : T} (h : Sub u t) : ∀ q ∈ u.flat, q ∈ t.flat := by
  induction h with
  | self => exact fun _ h => h
  | kid hx _ ih => exact fun q hq => mem_flat.mpr (.inr ⟨_, hx, ih q hq⟩)

theorem sub_of_key (t : T) : t.flat.Nodup → ∀ {u w : T} {q : Nat}, Sub u t → Sub w t → q ∈ u.keys → q ∈ w.keys → u = w := by
  induction t using T.ind with
  | h r ks ts ih =>
    intro hn u w q hu hw hqu hqw
    have hn : (flatL ks ts).Nodup := hn
    rw [(flatL_perm ks ts).nodup_iff, List.nodup_append] at hn
    obtain ⟨_, h2, h3⟩ := hn
    rw [List.nodup_flatMap] at h2
    have top : ∀ {v x : T}, x ∈ ts → Sub v x → q ∈ v.keys → q ∈ ks → False := by
      intro v x hx hv hq hk
      exact h3 q hk q (List.mem_flatMap.mpr ⟨x, hx, hv.flat q (mem_flat.mpr (.inl hq))⟩) rfl
    cases hu with
    | self =>
      cases hw with
      | self => rfl
      | kid hx hw => exact (top hx hw hqw hqu).elim
    | @kid _ x hx hu =>
      cases hw with
      | self => exact (top hx hu hqu hqw).elim
      | @kid _ y hy hw =>
        have e : x = y := by
          refine Classical.byContradiction fun hne => ?_
          have m1 := hu.flat q (mem_flat.mpr (.inl hqu))
          have m2 := hw.flat q (mem_flat.mpr (.inl hqw))
          rcases pairwise_mem h2.2 hx hy hne with h | h
          · exact h m1 m2
          · exact h m2 m1
        subst e
        exact ih x hx (h2.1 x hx) hu hw hqu hqw

theorem plug_sub (fs : List Fr) : ∀ {u n : T}, Sub u n → Sub u (plug fs n) := by
  induction fs with
  | nil => exact fun h => h
  | cons f fs ih => exact fun h => ih (.kid (by simp [T.kids]) h)

theorem plug_eq_self {fs : List Fr} {n : T} (h : plug fs n = n) : fs = [] := by
  have grow : ∀ (fs : List Fr) (n : T), sizeOf n + fs.length ≤ sizeOf (plug fs n) := by
    intro fs
    induction fs with
    | nil => intro n; exact Nat.le_refl _
    | cons f fs ih =>
      intro n
      have h1 := ih (.mk f.ref (f.ka ++ f.kb) (f.A ++ n :: f.B))
      have h2 : sizeOf n < sizeOf (f.A ++ n :: f.B) := List.sizeOf_lt_of_mem (by simp)
      have h3 : sizeOf (f.A ++ n :: f.B) < sizeOf (T.mk f.ref (f.ka ++ f.kb) (f.A ++ n :: f.B)) := by
        simp only [T.mk.sizeOf_spec]; omega
      show _ ≤ sizeOf (plug fs (.mk f.ref (f.ka ++ f.kb) (f.A ++ n :: f.B)))
      simp only [List.length_cons]
      omega
  have := grow fs n
  rw [h] at this
  exact List.length_eq_zero_iff.mp (by omega)

theorem spec_subtrees (c : List Bytes) (t : T) : ∀ l ∈ (t.spec c).subtrees, ∃ u, Sub u t ∧ l = u.spec c := by
  induction t using T.ind with
  | h r ks ts ih =>
    intro l hl
    rcases mem_subtrees.mp hl with rfl | ⟨x, hx, hl⟩
    · exact ⟨_, .self, rfl⟩
    · simp only [T.spec, STree.kids, List.mem_map] at hx
      obtain ⟨y, hy, rfl⟩ := hx
      obtain ⟨u, h1, h2⟩ := ih y hy l hl
      exact ⟨u, .kid hy h1, h2⟩

/-- The leaf that can spare the key is the node a search for it finds. -/
theorem canSpare_found {c : List Bytes} {H : Nat} {t : T} (ht : TreeAt c H t) {k : Bytes} (hk : (t.spec c).CanSpare k)
    {fs : List Fr} {n : T} (hp : plug fs n = t) {q : Nat} (hq : q ∈ n.keys) (hqk : keyOf c q = k) :
    n.kids = [] ∧ (5 ≤ n.keys.length ∨ fs = []) := by
  obtain ⟨l, hl, h1, h2, h3⟩ := hk
  obtain ⟨u, hu, rfl⟩ := spec_subtrees c t l hl
  have hn : Sub n t := hp ▸ plug_sub fs .self
  obtain ⟨ur, uks, uts⟩ := u
  simp only [T.spec, STree.keys, STree.kids, List.map_map, List.mem_map, List.map_eq_nil_iff, List.length_map] at h1 h2 h3
  obtain ⟨q', hq', hk'⟩ := h2
  have hk' : keyOf c q' = k := hk'
  have e : q' = q := by
    have m1 : q' ∈ t.flat := hu.flat q' (mem_flat.mpr (.inl hq'))
    have m2 : q ∈ t.flat := hn.flat q (mem_flat.mpr (.inl hq))
    refine Classical.byContradiction fun hne => ?_
    rcases pairwise_mem ht.srt m1 m2 hne with h | h <;> rw [hk', hqk] at h <;> exact blt_irrefl _ h
  subst e
  have e := sub_of_key t ht.srt.nodup hn hu hq hq'
  subst e
  refine ⟨h1, ?_⟩
  rcases h3 with h3 | h3
  · exact .inl h3
  · right
    have hkids : t.kids = [] := by
      have := congrArg STree.kids h3
      obtain ⟨tr, tks, tts⟩ := t
      simp only [STree.kids, T.spec, h1, List.map_nil] at this
      exact List.map_eq_nil_iff.mp this.symm
    have : T.mk ur uks uts = t := by
      cases hn with
      | self => rfl
      | kid hx _ => rw [hkids] at hx; cases hx
    exact plug_eq_self (hp.trans this.symm)

/-! ## Programs run on one state -/

/-- No failing read makes a difference to `p` on `s`. -/
def UnmovedAt (p : Prog α) (s : St) : Prop := ∀ r t, Flakes p s r t → (r, t) = p.run s

theorem NoFetch.unmoved {p : Prog α} (h : NoFetch p) (s : St) : UnmovedAt p s := fun _ _ hf => (h.flakes hf).symm

theorem UnmovedAt.bind {p : Prog α} {f : α → Prog β} {s u : St} {a : α} (h : UnmovedAt p s) (hr : p.run s = (.ok a, u))
    (hf : UnmovedAt (f a) u) : UnmovedAt (p >>= f) s := by
  intro r t hfl
  rw [Prog.run_bind, bind_ok hr]
  rcases hfl.bind with ⟨a', u', h2, h3⟩ | ⟨e, h2, rfl⟩
  · have := h _ _ h2
    rw [hr] at this
    cases this
    exact hf _ _ h3
  · have := h _ _ h2
    rw [hr] at this
    cases this

/-- Failing reads end `p` on `s` with some blocks more loaded. -/
def FrailAt (p : Prog α) (s : St) : Prop :=
  ∀ r t, Flakes p s r t → (r, t) = p.run s ∨ ∃ e, ReadErr e ∧ r = .error e ∧ Ext s t

theorem UnmovedAt.frailAt {p : Prog α} {s : St} (h : UnmovedAt p s) : FrailAt p s := fun r t hf => .inl (h r t hf)

theorem Frail.bindAt {p : Prog α} {f : α → Prog β} (h : Frail α p) {s u : St} {a : α} (hw : SWF s)
    (hr : p.run s = (.ok a, u)) (hf : FrailAt (f a) u) : FrailAt (p >>= f) s := by
  intro r t hfl
  rw [Prog.run_bind, bind_ok hr]
  obtain ⟨e1, g1⟩ := h s a u hw hr
  rcases hfl.bind with ⟨a', u', h2, h3⟩ | ⟨e, h2, rfl⟩
  · rcases g1 _ _ h2 with ⟨h4, rfl⟩ | ⟨e, _, h4, _⟩
    · cases h4
      rcases hf _ _ h3 with h5 | ⟨e, h5, h6, h7⟩
      · exact .inl h5
      · exact .inr ⟨e, h5, h6, e1.trans h7⟩
    · cases h4
  · rcases g1 _ _ h2 with ⟨h4, _⟩ | ⟨e', h4, h5, h6⟩
    · cases h4
    · cases h5; exact .inr ⟨e, h4, rfl, h6⟩

theorem FrailAt.finally {p : Prog α} {f : α → Prog β} {s : St} (h : FrailAt p s) (hf : ∀ a, NoFetch (f a)) :
    FrailAt (p >>= f) s := by
  intro r t hfl
  rw [Prog.run_bind]
  rcases hfl.bind with ⟨a, u, h1, h2⟩ | ⟨e, h1, rfl⟩
  · rcases h _ _ h1 with h3 | ⟨e, _, h3, _⟩
    · rw [bind_ok h3.symm]
      exact .inl ((hf a).flakes h2).symm
    · cases h3
  · rcases h _ _ h1 with h3 | ⟨e', h3, h4, h5⟩
    · left; rw [bind_run, ← h3]
    · cases h4; exact .inr ⟨e, h3, rfl, h5⟩

theorem unmoved_delChanges {s : St} {key : Bytes} {a i : Nat} {path : NodePath} {n : Node} (hn : s.heap[a]? = some n)
    (hi : i < n.keys.length) (hl : n.children = []) (hk : 5 ≤ n.keys.length ∨ path = []) :
    UnmovedAt (Prog.delChanges key ((a, i) :: path)) s := by
  have hlt : a < s.heap.length := (List.getElem?_eq_some_iff.mp hn).1
  obtain ⟨q, ks, hv, hlen⟩ : ∃ q ks, vecRemove n.keys i = some (q, ks) ∧ ks.length + 1 = n.keys.length := by
    have := vecRemove_mid (n.keys.take i) (n.keys.drop (i + 1)) n.keys[i]
    rw [List.length_take, Nat.min_eq_left (by omega), List.getElem_cons_drop, List.take_append_drop] at this
    refine ⟨_, _, this, ?_⟩
    simp only [List.length_append, List.length_take, List.length_drop]
    omega
  unfold Prog.delChanges
  refine (noFetch_version.unmoved s).bind (u := s) (a := s.core.length) rfl ?_
  dsimp only
  refine ((noFetch_edit _ _ _).unmoved s).bind (u := s.wr a { n with keys := ks }) (a := ()) ?_ ?_
  · rw [show ∀ f, (Prog.edit (β := Unit) .write a f).run = Hyperbee.edit a f from fun f => Does.lift _]
    unfold Hyperbee.edit
    rw [bind_ok (readNode_some hn)]
    dsimp only
    rw [hv]
    rfl
  have hself := St.wr_self hlt { n with keys := ks }
  refine (NoFetch.unmoved ?_ _).bind (u := s.wr a { n with keys := ks }) (a := true) ?_ ?_
  · unfold Prog.isLeaf; nofetch []
  · rw [show (Prog.isLeaf a).run = isLeaf a from does_isLeaf a, isLeaf_run hself]
    simp [hl]
  rw [if_pos rfl]
  refine UnmovedAt.bind (u := s.wr a { n with keys := ks }) (a := (a, i) :: path) (NoFetch.unmoved ?_ _) rfl ?_
  · exact True.intro
  dsimp only
  refine ((noFetch_readNode a).unmoved _).bind (u := s.wr a { n with keys := ks }) (a := { n with keys := ks }) ?_ ?_
  · rw [show (Prog.readNode a).run = readNode a from Does.lift _, readNode_some hself]
  rw [if_neg]
  · apply NoFetch.unmoved
    nofetch [noFetch_propagate _ _ _]
  · rintro ⟨h1, h2⟩
    rcases hk with hk | hk
    · simp only [minKeys, MAX_KEYS] at h2
      omega
    · subst hk; cases h1

/-- A deletion of a key that is in a leaf that can spare it. -/
theorem frailAt_delCas {s : St} {H : Nat} {t : T} (ht : TreeAt s.core H t) (hw : SWF s) (hc : Coh s (· ∈ t.refs))
    {k : Bytes} (hk : (t.spec s.core).CanSpare k) (cas : KeyValueData → Bool) :
    FrailAt (Prog.delCompareAndSwap k cas) s := by
  unfold Prog.delCompareAndSwap
  refine FrailAt.finally ?_ fun p => noFetch_commitPrepared p
  obtain ⟨a, s1, h1, e1, ha⟩ := getRoot_run ht hw false
  obtain ⟨m, a', i, fs, n, s2, h2, e2, hf⟩ := nearestNode_run (.finite k) (s := s1) (a := a)
    (by rw [e1.core]; exact ht) e1.wf (e1.coh hw hc) ha
  have e12 := e1.trans e2
  have ht2 : TreeAt s2.core H t := by rw [e12.core]; exact ht
  unfold Prog.delPrepare
  refine frail_acts.getRoot_.bindAt hw (a := some a) (u := s1) ?_ ?_
  · rw [← h1]; exact congrFun (does_getRoot false) s
  dsimp only
  refine (frail_acts.nearestNode_ _ _).bindAt e1.wf (a := (m, (a', i) :: fs.map Fr.step)) (u := s2) ?_ ?_
  · rw [← h2]; exact congrFun (does_nearestNode a (.finite k)) s1
  dsimp only
  cases m with
  | none =>
    refine UnmovedAt.frailAt (NoFetch.unmoved ?_ _)
    exact True.intro
  | some q =>
    obtain ⟨hn, _, _⟩ := hf.node ht2.rep (e12.coh hw hc)
    obtain ⟨hq1, hq2⟩ := hf.hit q rfl
    have hmem : q ∈ t.flat := by
      have : Sub n t := hf.plug ▸ plug_sub fs .self
      exact this.flat q (mem_flat.mpr (.inl (List.mem_of_getElem? hq1)))
    obtain ⟨b, hb⟩ := ht2.dfd q hmem
    obtain ⟨s3, h3, e3⟩ := getKeyValue_run e2.wf hn (i := i) (q := q) hq1 hb
    dsimp only
    refine (frail_orPanic _ _).bindAt e2.wf (a := (a', i)) (u := s2) rfl ?_
    dsimp only
    refine (frail_acts.getKeyValue_ _ _).bindAt e2.wf (a := ⟨q, keyOf s2.core q, valOf s2.core q⟩) (u := s3) ?_ ?_
    · rw [← h3]; exact congrFun (does_getKeyValue a' i) s2
    split
    · refine UnmovedAt.frailAt (NoFetch.unmoved ?_ _)
      exact True.intro
    · have hkey : keyOf s.core q = k := by
        rw [e12.core] at hq2
        exact ((bcmp_eq_iff _ _).mp hq2).symm
      obtain ⟨g1, g2⟩ := canSpare_found ht hk hf.plug (List.mem_of_getElem? hq1) hkey
      refine FrailAt.finally (UnmovedAt.frailAt ?_) fun ch => True.intro
      refine unmoved_delChanges (n := n.node) (e3.get hn) ?_ ?_ ?_
      · exact (List.getElem?_eq_some_iff.mp hq1).1
      · simp [T.node, g1]
      · rcases g2 with g2 | g2
        · exact .inl g2
        · exact .inr (by rw [g2]; rfl)

/-- A deletion from a leaf that can spare the key, with failing reads. -/
theorem flakes_del_spare {s t : St} {H : Nat} {u : T} (ht : TreeAt s.core H u) (hw : SWF s) (hc : Coh s (· ∈ u.refs))
    {k : Bytes} (hk : (u.spec s.core).CanSpare k) {c : Cmd} (hcmd : c = .del k ∨ ∃ cas, c = .delCas k cas)
    {r : Except Err Reply} (hfl : Flakes (Prog.exec c) s r t) :
    (r = .ok (exec c s).1 ∧ t = (exec c s).2) ∨ ∃ e, ReadErr e ∧ r = .ok (.error e) ∧ Ext s t := by
  have conv : ∀ {α : Type} (p : Prog α) (m : M α), Does p m → FrailAt p s → ∀ (f : α → Reply),
      Flakes (Prog.replyOf f p) s r t → exec c s = Hyperbee.replyOf m f s →
      (r = .ok (exec c s).1 ∧ t = (exec c s).2) ∨ ∃ e, ReadErr e ∧ r = .ok (.error e) ∧ Ext s t := by
    intro α p m hd hp f hfl he
    obtain ⟨x, h1, rfl⟩ := hfl.replyOf
    rcases hp _ _ h1 with h2 | ⟨e, h2, rfl, h3⟩
    · rw [show p.run s = m s from congrFun hd s] at h2
      left
      rw [he]
      simp only [Hyperbee.replyOf, ← h2]
      cases x <;> exact ⟨rfl, rfl⟩
    · exact .inr ⟨e, h2, rfl, h3⟩
  rcases hcmd with rfl | ⟨cas, rfl⟩
  · refine conv _ _ (does_del k) ?_ _ hfl rfl
    unfold Prog.del
    refine (frailAt_delCas ht hw hc hk _).finally fun x => ?_
    nofetch []
  · exact conv _ _ (does_delCas k cas) (frailAt_delCas ht hw hc hk _) _ hfl rfl

end Hyperbee
