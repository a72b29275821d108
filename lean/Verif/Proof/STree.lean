import Verif.SpecTree
import Verif.Proof.Prefix
/-!
# From the trees of the proofs to the trees of the statements
-/

namespace Hyperbee

theorem STree.ind {P : STree → Prop} (h : ∀ ks ts, (∀ t ∈ ts, P t) → P (.node ks ts)) : ∀ t, P t
  | .node ks ts => h ks ts fun t _ => STree.ind h t

/-- A tree of references, with the keys filled in. -/
def T.spec (c : List Bytes) : T → STree
  | .mk _ ks ts => .node (ks.map fun q => (q, keyOf c q)) (ts.map (T.spec c))

theorem wireBlock_blockAt {c : List Bytes} {q : Nat} {b : Blk} (h : blockAt c q = some b) :
    ∃ m ls, wireBlock c q = some (m, ls) ∧ m.key = b.key ∧ m.value = b.value ∧ levelsToNodes ls = some b.nodes := by
  unfold blockAt at h
  unfold wireBlock
  cases hc : c[q]? with
  | none => simp [hc] at h
  | some x =>
    rw [hc] at h
    simp only [Option.bind_some, blockOf] at h
    cases hm : decodeNode x with
    | none => simp [hm] at h
    | some m =>
      cases hy : decodeYolo m.index with
      | none => simp [hm, hy] at h
      | some ls =>
        cases hn : levelsToNodes ls with
        | none => simp [hm, hy, hn] at h
        | some ns =>
          simp only [hm, hy, hn, Option.some.injEq] at h
          subst h
          exact ⟨m, ls, by simp [hm, hy], rfl, rfl, hn⟩

theorem pairUp_inv : ∀ {l : List Nat} {cs : List Child}, pairUp l = some cs →
    l = cs.flatMap fun c => [c.seq, c.offset] := by
  intro l
  induction l using pairUp.induct with
  | case1 => intro cs h; simp [pairUp] at h; subst h; rfl
  | case2 => intro cs h; simp [pairUp] at h
  | case3 s o rest h ih => intro cs hc; simp [pairUp, h] at hc
  | case4 s o rest cs' h ih =>
    intro cs hc
    simp only [pairUp, h, Option.some.injEq] at hc
    subst hc
    rw [ih h]; rfl

theorem levelsToNodes_get : ∀ {ls : List Level} {ns : List Node}, levelsToNodes ls = some ns →
    ls.length = ns.length ∧ ∀ (i : Nat) nd, ns[i]? = some nd → ∃ l, ls[i]? = some l ∧ l.keys = nd.keys ∧
      l.children = nd.children.flatMap fun c => [c.seq, c.offset] := by
  intro ls
  induction ls with
  | nil => intro ns h; simp [levelsToNodes] at h; subst h; simp
  | cons l ls ih =>
    intro ns h
    simp only [levelsToNodes] at h
    cases h1 : levelToNode l with
    | none => simp [h1] at h
    | some n =>
      cases h2 : levelsToNodes ls with
      | none => simp [h1, h2] at h
      | some ns' =>
        simp only [h1, h2, Option.some.injEq] at h
        subst h
        obtain ⟨i1, i2⟩ := ih h2
        refine ⟨by simp [i1], ?_⟩
        intro i nd hi
        cases i with
        | zero =>
          simp only [List.getElem?_cons_zero, Option.some.injEq] at hi
          subst hi
          refine ⟨l, rfl, ?_⟩
          unfold levelToNode at h1
          cases h3 : pairUp l.children with
          | none => simp [h3] at h1
          | some cs =>
            simp only [h3, Option.some.injEq] at h1
            subst h1
            exact ⟨rfl, pairUp_inv h3⟩
        | succ i => simpa using i2 i nd (by simpa using hi)

/-- A stored tree of references is a stored tree of keys. -/
theorem Rep.stores {c : List Bytes} {t : T} (h : Rep (nodeAt c) t) (hd : ∀ q ∈ t.flat, ∃ b, blockAt c q = some b)
    {H : Nat} (hs : Shape H t) : Stores c t.ref.seq t.ref.offset (t.spec c) := by
  induction h generalizing H with
  | @mk r ks ts hn hk ih =>
    unfold nodeAt at hn
    cases hb : blockAt c r.seq with
    | none => simp [hb] at hn
    | some b =>
      rw [hb] at hn
      obtain ⟨m, ls, w1, _, _, w4⟩ := wireBlock_blockAt hb
      obtain ⟨l, g1, g2, g3⟩ := (levelsToNodes_get w4).2 _ _ hn
      have hkm : ∀ q ∈ ks, q ∈ (T.mk r ks ts).flat := fun q hq => by rw [T.flat]; exact mem_flatL (.inl hq)
      rw [T.spec]
      refine Stores.mk (refs := ts.map fun t => (t.ref.seq, t.ref.offset)) w1 g1 ?_ ?_ ?_ (by simp) ?_
      · rw [g2]; simp [Function.comp_def]
      · intro k hk'
        obtain ⟨q, hq, rfl⟩ := List.mem_map.mp hk'
        obtain ⟨b', hb'⟩ := hd q (hkm q hq)
        obtain ⟨m', ls', w1', w2', _⟩ := wireBlock_blockAt hb'
        exact ⟨m', ls', w1', by simp [w2', keyOf, hb']⟩
      · rw [g3]; simp [List.flatMap_map]
      · intro j r' t' hr ht
        simp only [List.getElem?_map, Option.map_eq_some_iff] at hr ht
        obtain ⟨u, hu, rfl⟩ := hr
        obtain ⟨u', hu', rfl⟩ := ht
        rw [hu] at hu'
        cases hu'
        have hmem := List.mem_of_getElem? hu
        obtain ⟨H', hs'⟩ : ∃ H', Shape H' u := by
          cases H with
          | zero => simp only [Shape] at hs; subst hs; simp at hmem
          | succ H' => exact ⟨H', hs.2 u hmem⟩
        exact ih u hmem (fun q hq => hd q (by rw [T.flat]; exact mem_flatL (.inr ⟨u, hmem, hq⟩))) hs'

theorem flatMap_pair_inj : ∀ {a b : List (Nat × Nat)},
    (a.flatMap fun r => [r.1, r.2]) = (b.flatMap fun r => [r.1, r.2]) → a = b := by
  intro a
  induction a with
  | nil => intro b h; cases b with
    | nil => rfl
    | cons x b => simp at h
  | cons x a ih =>
    intro b h
    cases b with
    | nil => simp at h
    | cons y b =>
      simp only [List.flatMap_cons, List.cons_append, List.nil_append, List.cons.injEq] at h
      rw [ih h.2.2, Prod.ext h.1 h.2.1]

/-- A core stores at most one tree at a place. -/
theorem Stores.unique {c : List Bytes} {q i : Nat} {t t' : STree} (h : Stores c q i t) (h' : Stores c q i t') :
    t = t' := by
  induction h generalizing t' with
  | @mk q i m ls l ks refs kids b1 b2 b3 b4 b5 b6 b7 ih =>
    cases h' with
    | @mk _ _ m' ls' l' ks' refs' kids' d1 d2 d3 d4 d5 d6 d7 =>
      rw [b1] at d1
      cases d1
      rw [b2] at d2
      cases d2
      have hrefs : refs = refs' := flatMap_pair_inj (b5.symm.trans d5)
      subst hrefs
      congr 1
      · have hm : ks.map (·.1) = ks'.map (·.1) := b3.symm.trans d3
        have hlen : ks.length = ks'.length := by simpa using congrArg List.length hm
        apply List.ext_getElem hlen
        intro j h1 h2
        have e1 : ks[j].1 = ks'[j].1 := by
          have := congrArg (·[j]?) hm
          simpa [h1, h2] using this
        obtain ⟨m1, l1, x1, x2⟩ := b4 _ (List.getElem_mem h1)
        obtain ⟨m2, l2, y1, y2⟩ := d4 _ (List.getElem_mem h2)
        rw [e1, y1] at x1
        cases x1
        exact Prod.ext e1 (x2.symm.trans y2)
      · apply List.ext_getElem (by omega)
        intro j h1 h2
        have hr : j < refs.length := by omega
        exact ih j refs[j] kids[j] (by simp [hr]) (by simp [h1]) (d7 j refs[j] kids'[j] (by simp [hr]) (by simp [h2]))

/-! ## Translating the predicates -/

theorem spec_keys (c : List Bytes) (t : T) : (t.spec c).keys = t.keys.map fun q => (q, keyOf c q) := by
  cases t; simp [T.spec, STree.keys, T.keys]

theorem spec_kids (c : List Bytes) (t : T) : (t.spec c).kids = t.kids.map (T.spec c) := by
  cases t; simp [T.spec, STree.kids, T.kids]

theorem mem_below {u : STree} {ts : List STree} : u ∈ STree.subtrees.below ts ↔ ∃ t ∈ ts, u ∈ t.subtrees := by
  induction ts with
  | nil => simp [STree.subtrees.below]
  | cons t ts ih => simp [STree.subtrees.below, ih]

theorem mem_subtrees {u t : STree} : u ∈ t.subtrees ↔ u = t ∨ ∃ k ∈ t.kids, u ∈ k.subtrees := by
  cases t with
  | node ks ts => simp [STree.subtrees, STree.kids, mem_below]

theorem mem_depths {d : Nat} {ts : List STree} : d ∈ STree.leafDepths.below ts ↔ ∃ t ∈ ts, d ∈ t.leafDepths := by
  induction ts with
  | nil => simp [STree.leafDepths.below]
  | cons t ts ih => simp [STree.leafDepths.below, ih]

theorem spec_inorder (c : List Bytes) (t : T) : (t.spec c).inorder = t.flat.map fun q => (q, keyOf c q) := by
  induction t using T.ind with
  | h r ks ts ih =>
    rw [T.spec, STree.inorder, T.flat]
    clear r
    induction ts generalizing ks with
    | nil => simp [STree.inorder.weave, flatL_nil]
    | cons t ts iht =>
      have h1 := ih t (by simp)
      have h2 := fun ks => iht ks (fun u hu => ih u (by simp [hu]))
      cases ks with
      | nil =>
        simp only [List.map_nil, List.map_cons, STree.inorder.weave, flatL, List.map_append, h1]
        rw [← h2 []]; rfl
      | cons k ks =>
        simp only [List.map_cons, STree.inorder.weave, flatL, List.map_append, h1]
        rw [← h2 ks]

theorem spec_depths {c : List Bytes} : ∀ {H : Nat} {t : T}, Shape H t → ∀ d ∈ (t.spec c).leafDepths, d = H + 1 := by
  intro H
  induction H with
  | zero =>
    intro t h d hd
    obtain ⟨r, ks, ts⟩ := t
    simp only [Shape] at h
    subst h
    simpa [T.spec, STree.leafDepths] using hd
  | succ H ih =>
    intro t h d hd
    obtain ⟨r, ks, ts⟩ := t
    obtain ⟨h1, h2⟩ := h
    cases ts with
    | nil => simp at h1
    | cons t ts =>
      rw [T.spec, List.map_cons, STree.leafDepths, ← List.map_cons] at hd
      simp only [List.mem_map] at hd
      obtain ⟨e, he, rfl⟩ := hd
      obtain ⟨u, hu, hue⟩ := mem_depths.mp he
      obtain ⟨v, hv, rfl⟩ := List.mem_map.mp hu
      rw [ih (h2 v hv) e hue]

theorem spec_depths_ne (c : List Bytes) (t : T) : (t.spec c).leafDepths ≠ [] := by
  induction t using T.ind with
  | h r ks ts ih =>
    cases ts with
    | nil => simp [T.spec, STree.leafDepths]
    | cons t ts =>
      rw [T.spec, List.map_cons, STree.leafDepths]
      simp only [ne_eq, List.map_eq_nil_iff, STree.leafDepths.below, List.append_eq_nil_iff]
      exact fun h => ih t (by simp) h.1

theorem spec_sub {c : List Bytes} : ∀ {H : Nat} {b : Bool} {t : T}, GoodN b H t →
    (∀ u ∈ (t.spec c).subtrees, (u.kids = [] ∨ u.kids.length = u.keys.length + 1) ∧ u.keys.length ≤ 8) ∧
    (∀ u ∈ (t.spec c).proper, 4 ≤ u.keys.length) ∧ (b = false → 4 ≤ (t.spec c).keys.length) := by
  intro H
  induction H with
  | zero =>
    intro b t h
    obtain ⟨r, ks, ts⟩ := t
    obtain ⟨rfl, hf⟩ := h
    refine ⟨?_, ?_, ?_⟩
    · intro u hu
      simp [T.spec, STree.subtrees, STree.subtrees.below] at hu
      subst hu
      exact ⟨.inl rfl, by simpa [STree.keys] using hf.1⟩
    · simp [T.spec, STree.proper, STree.subtrees.below]
    · intro hb; simpa [T.spec, STree.keys] using hf.2.1 hb
  | succ H ih =>
    intro b t h
    obtain ⟨r, ks, ts⟩ := t
    obtain ⟨h1, hf, h2⟩ := h
    have below : ∀ u ∈ STree.subtrees.below (ts.map (T.spec c)),
        (u.kids = [] ∨ u.kids.length = u.keys.length + 1) ∧ u.keys.length ≤ 8 ∧ 4 ≤ u.keys.length := by
      intro u hu
      obtain ⟨v, hv, huv⟩ := mem_below.mp hu
      obtain ⟨w, hw, rfl⟩ := List.mem_map.mp hv
      obtain ⟨i1, i2, i3⟩ := ih (h2 w hw)
      obtain ⟨j1, j2⟩ := i1 u huv
      refine ⟨j1, j2, ?_⟩
      rcases mem_subtrees.mp huv with rfl | ⟨k, hk, hku⟩
      · exact i3 rfl
      · refine i2 u ?_
        obtain ⟨r', ks', ts'⟩ := w
        rw [T.spec, STree.proper]
        rw [T.spec, STree.kids] at hk
        exact mem_below.mpr ⟨k, hk, hku⟩
    refine ⟨?_, ?_, ?_⟩
    · intro u hu
      rw [T.spec, STree.subtrees] at hu
      rcases List.mem_cons.mp hu with rfl | hu
      · exact ⟨.inr (by simp [STree.kids, STree.keys, h1]), by simpa [STree.keys] using hf.1⟩
      · exact ⟨(below u hu).1, (below u hu).2.1⟩
    · intro u hu
      rw [T.spec, STree.proper] at hu
      exact (below u hu).2.2
    · intro hb; simpa [T.spec, STree.keys] using hf.2.1 hb

theorem TreeAt.btree {c : List Bytes} {H : Nat} {t : T} (h : TreeAt c H t) : IsBTree (t.spec c) := by
  obtain ⟨s1, s2, _⟩ := spec_sub (c := c) h.good
  refine ⟨?_, ⟨H + 1, spec_depths h.good.shape⟩, fun u hu => (s1 u hu).1, fun u hu => (s1 u hu).2, s2, ?_⟩
  · rw [spec_inorder, List.pairwise_map]; exact h.srt
  · intro hk
    obtain ⟨r, ks, ts⟩ := t
    cases H with
    | zero =>
      have := h.good.1
      subst this
      simp [T.spec, STree.kids] at hk
    | succ H => simpa [T.spec, STree.keys] using h.good.2.1.2.2 rfl (by omega)

theorem TreeAt.stores {c : List Bytes} {H : Nat} {t : T} (h : TreeAt c H t) : StoresRoot c (t.spec c) := by
  have := h.rep.stores h.dfd h.good.shape
  rwa [h.ref] at this

/-! ## The nodes of the newest block -/

mutual
/-- The new subtrees in pre-order. -/
def T.news (v : Nat) : T → List T
  | .mk r ks ts => .mk r ks ts :: newsL v ts
def newsL (v : Nat) : List T → List T
  | [] => []
  | t :: ts => (if t.ref.seq = v then t.news v else []) ++ newsL v ts
end

theorem T.pre_news (v : Nat) (t : T) : t.pre v = (t.news v).map T.node := by
  induction t using T.ind with
  | h r ks ts ih =>
    rw [T.pre, T.news, List.map_cons]
    congr 1
    clear r ks
    induction ts with
    | nil => rfl
    | cons t ts iht =>
      rw [preL, newsL, List.map_append, iht (fun u hu => ih u (by simp [hu]))]
      split
      · rw [ih t (by simp)]
      · rfl

theorem T.offs_news (v : Nat) (t : T) : t.offs v = (t.news v).map (fun u => u.ref.offset) := by
  induction t using T.ind with
  | h r ks ts ih =>
    rw [T.offs, T.news, List.map_cons]
    congr 1
    clear r ks
    induction ts with
    | nil => rfl
    | cons t ts iht =>
      rw [offsL, newsL, List.map_append, iht (fun u hu => ih u (by simp [hu]))]
      split
      · rw [ih t (by simp)]
      · rfl

theorem mem_newsL {v : Nat} {u : T} {ts : List T} : u ∈ newsL v ts ↔ ∃ t ∈ ts, t.ref.seq = v ∧ u ∈ t.news v := by
  induction ts with
  | nil => simp [newsL]
  | cons t ts ih =>
    rw [newsL]
    split
    · rename_i h; simp [ih, h]
    · rename_i h; simp [ih, h]

/-- What passes from a tree to its subtrees holds of the new ones. -/
theorem T.news_all {P : T → Prop} (hP : ∀ t, P t → ∀ u ∈ t.kids, P u) {v : Nat} {t : T} (h : P t) :
    ∀ u ∈ t.news v, P u := by
  induction t using T.ind with
  | h r ks ts ih =>
    intro u hu
    rw [T.news, List.mem_cons] at hu
    rcases hu with rfl | hu
    · exact h
    · obtain ⟨t, ht, _, hu⟩ := mem_newsL.mp hu
      exact ih t ht (hP _ h t ht) u hu

theorem T.news_seq {v : Nat} {t : T} (h : t.ref.seq = v) : ∀ u ∈ t.news v, u.ref.seq = v := by
  induction t using T.ind with
  | h r ks ts ih =>
    intro u hu
    rw [T.news, List.mem_cons] at hu
    rcases hu with rfl | hu
    · exact h
    · obtain ⟨t, ht, h', hu⟩ := mem_newsL.mp hu
      exact ih t ht h' u hu

theorem wireBlock_append {c : List Bytes} {q : Nat} (h : q < c.length) (ext : List Bytes) :
    wireBlock (c ++ ext) q = wireBlock c q := by
  simp [wireBlock, List.getElem?_append_left h]

theorem wireBlock_lt {c : List Bytes} {q : Nat} {x : NodeSchema × List Level} (h : wireBlock c q = some x) :
    q < c.length := by
  unfold wireBlock at h
  cases hc : c[q]? with
  | none => simp [hc] at h
  | some b => exact (List.getElem?_eq_some_iff.mp hc).1

theorem wireBlock_mono {c c' : List Bytes} (hp : c <+: c') {q : Nat} {x : NodeSchema × List Level}
    (h : wireBlock c q = some x) : wireBlock c' q = some x := by
  obtain ⟨e, rfl⟩ := hp
  rw [wireBlock_append (wireBlock_lt h), h]

theorem Stores.mono {c c' : List Bytes} (hp : c <+: c') {q i : Nat} {t : STree} (h : Stores c q i t) :
    Stores c' q i t := by
  induction h with
  | @mk q i m ls l ks refs kids b1 b2 b3 b4 b5 b6 b7 ih =>
    refine .mk (wireBlock_mono hp b1) b2 b3 ?_ b5 b6 ih
    intro k hk
    obtain ⟨m', ls', h1, h2⟩ := b4 k hk
    exact ⟨m', ls', wireBlock_mono hp h1, h2⟩

theorem SoundBlock.mono {c c' : List Bytes} (hp : c <+: c') {q : Nat} {ls : List Level} (h : SoundBlock c q ls) :
    SoundBlock c' q ls := by
  refine ⟨?_, ?_, h.count, h.order, ?_⟩
  · intro l hl p hpk
    obtain ⟨h1, h2, h3⟩ := h.keys l hl p hpk
    obtain ⟨x, hx⟩ := Option.isSome_iff_exists.mp h3
    exact ⟨h1, h2, by simp [wireBlock_mono hp hx]⟩
  · intro i l hl
    obtain ⟨refs, h1, h2⟩ := h.children i l hl
    refine ⟨refs, h1, fun r hr => ?_⟩
    obtain ⟨h3, m', ls', h4, h5⟩ := h2 r hr
    exact ⟨h3, m', ls', wireBlock_mono hp h4, h5⟩
  · intro i hi
    obtain ⟨t, ht⟩ := h.finite i hi
    exact ⟨t, ht.mono hp⟩

theorem visits_of {c : List Bytes} {q : Nat} {m : NodeSchema} {ls : List Level} {ns : List Node} (hw : wireBlock c q = some (m, ls))
    (hls : levelsToNodes ls = some ns) (hns : ∀ o, nodeAt c ⟨q, o⟩ = ns[o]?) {t : T} (h : Rep (nodeAt c) t) (hq : t.ref.seq = q) :
    Visits ls q t.ref.offset (t.offs q) := by
  induction h with
  | @mk r ks ts hn hk ih =>
    obtain ⟨rs, ro⟩ := r
    simp only [T.ref] at hq
    subst hq
    rw [hns] at hn
    obtain ⟨l, g1, g2, g3⟩ := (levelsToNodes_get hls).2 _ _ hn
    have hoffs : offsL rs ts = (ts.map fun t => if t.ref.seq = rs then t.offs rs else []).flatten := by
      clear hn hk ih g3 g2
      induction ts with
      | nil => rfl
      | cons t ts ih => simp [offsL, ih]
    rw [T.offs, hoffs]
    refine Visits.mk (refs := ts.map fun t => (t.ref.seq, t.ref.offset)) g1 ?_ (by simp) ?_ ?_
    · rw [g3]; simp [List.flatMap_map]
    · intro j r w hr hw' he
      simp only [List.getElem?_map, Option.map_eq_some_iff] at hr hw'
      obtain ⟨u, hu, rfl⟩ := hr
      obtain ⟨u', hu', rfl⟩ := hw'
      rw [hu] at hu'
      cases hu'
      simp only at he
      rw [if_pos he]
      exact ih u (List.mem_of_getElem? hu) he
    · intro j r w hr hw' he
      simp only [List.getElem?_map, Option.map_eq_some_iff] at hr hw'
      obtain ⟨u, hu, rfl⟩ := hr
      obtain ⟨u', hu', rfl⟩ := hw'
      rw [hu] at hu'
      cases hu'
      simp only at he
      rw [if_neg he]

/-- The newest block is sound. -/
theorem Newest.sound {c : List Bytes} {H : Nat} {t : T} (h : Newest c H t) :
    ∃ m ls, wireBlock c (c.length - 1) = some (m, ls) ∧ 0 < ls.length ∧ SoundBlock c (c.length - 1) ls := by
  obtain ⟨k, v, ns, hc, hns, hpos, hch⟩ := h.block
  have htw := h.tree.two
  have hb : blockAt c (c.length - 1) = some ⟨ns, k, v⟩ := by
    have hl : (c.take (c.length - 1)).length = c.length - 1 := by simp
    have : blockAt (c.take (c.length - 1) ++ [encodeBlock k v ns]) (c.length - 1) = some ⟨ns, k, v⟩ := by
      have h1 := blockAt_last (c.take (c.length - 1)) (encodeBlock k v ns)
      rwa [hl, blockOf_encodeBlock] at h1
    rwa [← hc] at this
  obtain ⟨m, ls, w1, w2, w3, w4⟩ := wireBlock_blockAt hb
  obtain ⟨l1, l2⟩ := levelsToNodes_get w4
  simp only at l1 l2
  have hnode : ∀ o, nodeAt c ⟨c.length - 1, o⟩ = ns[o]? := by
    intro o; simp [nodeAt, hb]
  have hseq : t.ref.seq = c.length - 1 := by rw [h.tree.ref]
  have hnw : ns = (t.news (c.length - 1)).map T.node := by rw [hns, T.pre_news]
  have hof : (t.news (c.length - 1)).map (fun u => u.ref.offset) = List.range ns.length := by
    rw [← T.offs_news, h.offs, hns]
  -- node number i
  have hsub : ∀ i < ns.length, ∃ u, ns[i]? = some u.node ∧ u.ref = ⟨c.length - 1, i⟩ ∧ Rep (nodeAt c) u ∧
      (∃ H, Shape H u) ∧ ∀ q ∈ u.flat, q ∈ t.flat := by
    intro i hi
    have hlen : ns.length = (t.news (c.length - 1)).length := by rw [hnw]; simp
    have hi' : i < (t.news (c.length - 1)).length := by omega
    refine ⟨(t.news (c.length - 1))[i], ?_, ?_, ?_⟩
    · rw [hnw]; simp [hi']
    · have h1 := T.news_seq hseq _ (List.getElem_mem hi')
      have h2 : ((t.news (c.length - 1)).map (fun u => u.ref.offset))[i]? = some i := by
        rw [hof]; simp [hi]
      simp only [List.getElem?_map, List.getElem?_eq_getElem hi', Option.map_some, Option.some.injEq] at h2
      cases hr : (t.news (c.length - 1))[i].ref with
      | mk a b => rw [hr] at h1 h2; simp only at h1 h2; rw [h1, h2]
    · refine T.news_all (P := fun u => Rep (nodeAt c) u ∧ (∃ H, Shape H u) ∧ ∀ q ∈ u.flat, q ∈ t.flat) ?_
        ⟨h.tree.rep, ⟨H, h.tree.good.shape⟩, fun q hq => hq⟩ _ (List.getElem_mem hi')
      rintro u ⟨u1, ⟨H', u2⟩, u3⟩ w hw
      refine ⟨u1.kids w hw, ?_, fun q hq => u3 q ?_⟩
      · obtain ⟨r, ks, ts⟩ := u
        cases H' with
        | zero => simp only [Shape] at u2; subst u2; simp [T.kids] at hw
        | succ H' => exact ⟨H', u2.2 w hw⟩
      · obtain ⟨r, ks, ts⟩ := u
        rw [T.flat]; exact mem_flatL (.inr ⟨w, hw, hq⟩)
  refine ⟨m, ls, w1, by omega, ⟨?_, ?_, ?_, ?_, ?_⟩⟩
  · intro l hl p hp
    obtain ⟨i, hi, hil⟩ := List.getElem_of_mem hl
    obtain ⟨u, u1, u2, u3, u4, u5⟩ := hsub i (by omega)
    obtain ⟨l', g1, g2, g3⟩ := l2 i _ u1
    rw [List.getElem?_eq_getElem hi, hil] at g1
    cases g1
    have hpf : p ∈ t.flat := by
      refine u5 p ?_
      obtain ⟨r, ks, ts⟩ := u
      rw [T.flat]
      exact mem_flatL (.inl (by simpa [g2, T.node, T.keys] using hp))
    obtain ⟨b, hb'⟩ := h.tree.dfd p hpf
    obtain ⟨m', ls', x1, _⟩ := wireBlock_blockAt hb'
    have := blockAt_lt hb'
    exact ⟨h.tree.pos p hpf, by omega, by simp [x1]⟩
  · intro i l hl
    have hi : i < ls.length := (List.getElem?_eq_some_iff.mp hl).1
    obtain ⟨u, u1, u2, u3, u4, u5⟩ := hsub i (by omega)
    obtain ⟨l', g1, g2, g3⟩ := l2 i _ u1
    rw [hl] at g1
    cases g1
    refine ⟨u.kids.map fun w => (w.ref.seq, w.ref.offset), ?_, ?_⟩
    · rw [g3]; simp [T.node, List.flatMap_map]
    · intro r hr
      obtain ⟨w, hw, rfl⟩ := List.mem_map.mp hr
      constructor
      · rcases hch i _ u1 w.ref (by simp only [T.node]; exact List.mem_map.mpr ⟨w, hw, rfl⟩) with h1 | h1
        · exact .inl h1
        · exact .inr ⟨h1.1, h1.2.1⟩
      · have hn := (u3.kids w hw).node
        unfold nodeAt at hn
        cases hbw : blockAt c w.ref.seq with
        | none => simp [hbw] at hn
        | some bw =>
          obtain ⟨m', ls', x1, _, _, x4⟩ := wireBlock_blockAt hbw
          refine ⟨m', ls', x1, ?_⟩
          rw [hbw] at hn
          have := (List.getElem?_eq_some_iff.mp hn).1
          have := (levelsToNodes_get x4).1
          simp only
          omega
  · intro l hl
    obtain ⟨i, hi, hil⟩ := List.getElem_of_mem hl
    obtain ⟨u, u1, u2, u3, ⟨H', u4⟩, u5⟩ := hsub i (by omega)
    obtain ⟨l', g1, g2, g3⟩ := l2 i _ u1
    rw [List.getElem?_eq_getElem hi, hil] at g1
    cases g1
    obtain ⟨r, ks, ts⟩ := u
    cases H' with
    | zero =>
      simp only [Shape] at u4
      subst u4
      left
      rw [g3]
      rfl
    | succ H' =>
      right
      have hts : ts.length = ks.length + 1 := u4.1
      have hfl : ∀ cs : List Child, (cs.flatMap fun c => [c.seq, c.offset]).length = 2 * cs.length := by
        intro cs
        induction cs with
        | nil => rfl
        | cons c cs ih => simp at ih ⊢; omega
      rw [g3, hfl, g2]
      simp [T.node, T.kids, T.keys, hts]
  · have := visits_of w1 w4 hnode h.tree.rep hseq
    rw [h.tree.ref, T.offs_news, hof] at this
    rwa [l1]
  · intro i hi
    obtain ⟨u, u1, u2, u3, ⟨H', u4⟩, u5⟩ := hsub i (by omega)
    have := u3.stores (fun q hq => h.tree.dfd q (u5 q hq)) u4
    rw [u2] at this
    exact ⟨_, this⟩

/-- Every block of a reachable core but the header is sound. -/
theorem Reachable.sound {s : St} (hs : Reachable s) {q : Nat} (h1 : 1 ≤ q) (h2 : q < s.core.length) :
    ∃ m ls, wireBlock s.core q = some (m, ls) ∧ 0 < ls.length ∧ SoundBlock s.core q ls := by
  obtain ⟨s', hs', hc⟩ := hs.take (q + 1)
  have hl : s'.core.length = q + 1 := by rw [hc, List.length_take]; omega
  obtain ⟨H, t, hn⟩ := hs'.newest (by omega)
  obtain ⟨m, ls, x1, x2, x3⟩ := hn.sound
  have hp : s'.core <+: s.core := by rw [hc]; exact List.take_prefix _ _
  rw [show s'.core.length - 1 = q by omega] at x1 x3
  exact ⟨m, ls, wireBlock_mono hp x1, x2, x3.mono hp⟩

/-! ## The header -/

/-- The header block is not a node block: its index would be the protocol name. -/
theorem wireBlock_header (m : Option Metadata) : wireBlock [encodeHeader ⟨PROTOCOL, m⟩] 0 = none := by
  have hy : decodeYolo PROTOCOL = none := by decide
  have hd : ∃ x, decodeNode (encodeHeader ⟨PROTOCOL, m⟩) = some x ∧ x.index = PROTOCOL := by
    unfold decodeNode encodeHeader encodeOptLen
    cases m with
    | none =>
      have := (FieldsOf.nil.cons 1 (by decide) PROTOCOL).decode
      simp only [List.append_nil] at this
      simp [this, mergeNode]
    | some md =>
      have := ((FieldsOf.nil.cons 2 (by decide) (encodeMetadata md)).cons 1 (by decide) PROTOCOL).decode
      simp only [List.append_nil] at this
      simp [this, mergeNode]
  obtain ⟨x, h1, h2⟩ := hd
  simp [wireBlock, h1, h2, hy]

theorem header_of_len (cs : List Cmd) (h : (runSt cs St.init).core.length = 1) :
    ∃ m, (runSt cs St.init).core = [encodeHeader ⟨PROTOCOL, m⟩] := by
  induction cs using snocInd with
  | nil => simp [runSt, run, St.init, St.open] at h
  | snoc cs c ih =>
    rw [runSt_snoc] at h ⊢
    rcases (exec_step (run_holds cs) c).core_cases with ⟨e, _⟩ | ⟨h0, ⟨m, e⟩, _⟩ | ⟨b, e, h1, w, _⟩ | ⟨h0, b, e, w, _⟩
    · rw [e] at h ⊢; exact ih h
    · exact ⟨m, e⟩
    · rw [e, List.length_append, List.length_singleton] at h; omega
    · rw [e] at h; simp at h

end Hyperbee
