import Verif.Proof.Compose
import Verif.Proof.Clean
/-!
# How many blocks a lookup fetches

Every block fetched is kept in the cache (src/blocks.rs:68), so the growth of the cache counts the
blocks fetched.
-/

namespace Hyperbee

/-- The cache has grown by nothing but `qs`. -/
def GrownBy (qs : List Nat) (s s' : St) : Prop := ∀ q, s'.cache q ≠ none → s.cache q ≠ none ∨ q ∈ qs

/-- The cache has grown by at most `b` blocks. -/
def Grown (b : Nat) (s s' : St) : Prop := ∃ qs, qs.length ≤ b ∧ GrownBy qs s s'

theorem Grown.refl (b : Nat) (s : St) : Grown b s s := ⟨[], by simp, fun _ h => .inl h⟩

theorem Grown.trans {a b : Nat} {s s1 s2 : St} (h1 : Grown a s s1) (h2 : Grown b s1 s2) : Grown (a + b) s s2 := by
  obtain ⟨qs, l1, g1⟩ := h1
  obtain ⟨qs', l2, g2⟩ := h2
  refine ⟨qs ++ qs', by rw [List.length_append]; omega, fun q hq => ?_⟩
  rcases g2 q hq with h | h
  · rcases g1 q h with h | h
    · exact .inl h
    · exact .inr (List.mem_append.mpr (.inl h))
  · exact .inr (List.mem_append.mpr (.inr h))

theorem Grown.mono {a b : Nat} {s s' : St} (h : Grown a s s') (hab : a ≤ b) : Grown b s s' := by
  obtain ⟨qs, l, g⟩ := h
  exact ⟨qs, by omega, g⟩

/-- `m` fetches at most `b` blocks, whatever the state. -/
def Costs (b : Nat) (m : M α) : Prop := ∀ s, Grown b s (m s).2

theorem Costs.pure {a : α} : Costs 0 (Pure.pure a : M α) := fun s => Grown.refl 0 s
theorem Costs.throw {e : Err} : Costs 0 (Hyperbee.throw e : M α) := fun s => Grown.refl 0 s

theorem Costs.mono {m : M α} {a b : Nat} (h : Costs a m) (hab : a ≤ b) : Costs b m := fun s => (h s).mono hab

theorem Costs.bind {m : M α} {f : α → M β} {a b : Nat} (hm : Costs a m) (hf : ∀ x, Costs b (f x)) :
    Costs (a + b) (m >>= f) := by
  intro s
  rw [bind_run]
  have h1 := hm s
  cases hr : m s with
  | mk r s1 =>
    rw [hr] at h1
    cases r with
    | error e => exact h1.mono (by omega)
    | ok x => exact h1.trans (hf x s1)

theorem Costs.orPanic {site : String} {o : Option α} : Costs 0 (Hyperbee.orPanic site o) := by
  cases o
  · exact Costs.throw
  · exact Costs.pure

theorem Costs.readNode (a : Nat) : Costs 0 (readNode a) := by
  intro s
  unfold Hyperbee.readNode
  split <;> exact Grown.refl 0 s

theorem blocksGet_grows (q : Nat) (s : St) : GrownBy [q] s (blocksGet q s).2 := by
  rcases blocksGet_cases q s with ⟨e, _, h⟩ | ⟨_, ⟨_, h⟩ | ⟨_, ⟨b, _, h⟩ | ⟨_, _, e, xs, h, _⟩⟩⟩ <;> rw [h] <;> intro q' hq'
  · exact .inl hq'
  · exact .inl hq'
  · by_cases he : q' = q
    · exact .inr (by simp [he])
    · exact .inl (by simpa [loaded, cacheInsert, he] using hq')
  · exact .inl hq'

theorem Costs.blocksGet (q : Nat) : Costs 1 (blocksGet q) := fun s => ⟨[q], by simp, blocksGet_grows q s⟩

theorem Costs.getChild (a i : Nat) : Costs 1 (getChild a i) := by
  unfold Hyperbee.getChild getTreeNode
  refine (Costs.bind (Costs.readNode a) fun n => Costs.bind Costs.orPanic fun c =>
    Costs.bind (Costs.blocksGet _) fun e => Costs.orPanic).mono (by omega)

theorem Costs.isLeaf (a : Nat) : Costs 0 (isLeaf a) := by
  unfold Hyperbee.isLeaf
  exact Costs.bind (Costs.readNode a) fun n => Costs.pure

/-- The two block reads are of the same block. -/
theorem Costs.getKeyValue (a i : Nat) : Costs 1 (getKeyValue a i) := by
  unfold Hyperbee.getKeyValue
  refine (Costs.bind (Costs.readNode a) fun n => Costs.bind Costs.orPanic fun q => (?_ : Costs 1 _)).mono (by omega)
  intro s
  refine ⟨[q], by simp, ?_⟩
  rw [bind_run]
  have h1 := blocksGet_grows q s
  cases hr : Hyperbee.blocksGet q s with
  | mk r s1 =>
    rw [hr] at h1
    cases r with
    | error e => exact h1
    | ok e =>
      simp only [bind_run]
      have h2 := blocksGet_grows q s1
      have key : GrownBy [q] s (Hyperbee.blocksGet q s1).2 := by
        intro q' hq'
        rcases h2 q' hq' with h | h
        · exact h1 q' h
        · exact .inr h
      cases hr2 : Hyperbee.blocksGet q s1 with
      | mk r2 s2 =>
        rw [hr2] at key
        cases r2 <;> exact key

/-- Binary search over fewer than `2 ^ b` keys looks at no more than `b` of them. -/
theorem Costs.searchLoop (a : Nat) (key : LimitValue) : ∀ (b fuel low high : Nat), high + 1 - low < 2 ^ b →
    Costs b (searchLoop a key fuel low high)
  | b, 0, low, high, _ => Costs.throw.mono (Nat.zero_le _)
  | b, fuel + 1, low, high, h => by
    unfold Hyperbee.searchLoop
    split
    · rename_i hle
      cases b with
      | zero => simp at h; omega
      | succ b =>
        rw [Nat.pow_succ] at h
        have hmid : (high - low) >>> 1 = (high - low) / 2 := by rw [Nat.shiftRight_eq_div_pow]
        refine (Costs.bind (b := b) (Costs.getKeyValue a _) fun kv => ?_).mono (by omega)
        split
        · exact Costs.pure.mono (Nat.zero_le _)
        · split
          · split
            · exact Costs.pure.mono (Nat.zero_le _)
            · exact Costs.searchLoop a key b fuel _ _ (by omega)
          · exact Costs.searchLoop a key b fuel _ _ (by omega)
    · exact Costs.pure.mono (Nat.zero_le _)

/-- Searching a node of at most eight keys. -/
theorem getIndexOfKey_cost {s : St} {a : Nat} {n : Node} (hn : s.heap[a]? = some n) (h8 : n.keys.length ≤ 8)
    (key : LimitValue) : Grown 4 s (getIndexOfKey a key s).2 := by
  unfold getIndexOfKey
  rw [bind_ok (readNode_some hn)]
  split
  · exact Grown.refl _ _
  · exact Costs.searchLoop a key 4 _ 0 _ (by omega) s

theorem goodN_keys {root : Bool} {H : Nat} {t : T} (h : GoodN root H t) : t.node.keys.length ≤ 8 := by
  obtain ⟨r, ks, ts⟩ := t
  exact (goodN_mk.mp h).1.1

/-- The descent fetches at most four keys per level and one node per step. -/
theorem nearestLoop_cost (key : LimitValue) : ∀ (H : Nat) (root : Bool) (fuel : Nat) (t : T) (s : St) (a : Nat)
    (path : NodePath), SWF s → Rep (nodeAt s.core) t → Coh s (· ∈ t.refs) → GoodN root H t →
    Srt s.core t.flat → (∀ q ∈ t.flat, ∃ b, blockAt s.core q = some b) → addrOf s t.ref = some a →
    Grown (5 * H + 4) s (nearestLoop key fuel a path s).2 := by
  intro H
  induction H with
  | zero =>
    intro root fuel t s a path hw hrep hcoh hg hsrt hdef haddr
    cases fuel with
    | zero => exact Grown.refl _ _
    | succ fuel =>
      have h8 := goodN_keys hg
      have hn : s.heap[a]? = some t.node := by rw [hcoh _ (T.ref_mem_refs t) a haddr]; exact hrep.node
      have hlf := hg.shape
      obtain ⟨r, ks, ts⟩ := t
      simp only [Shape] at hlf
      subst hlf
      rw [T.flat, flatL_nil] at hsrt hdef
      obtain ⟨⟨m, i⟩, s1, h1, e1, hp⟩ := getIndexOfKey_run hw hn key hsrt hdef
      have hc := getIndexOfKey_cost hn h8 key
      rw [h1] at hc
      unfold nearestLoop
      rw [bind_ok h1]
      simp only []
      rw [bind_ok (isLeaf_run (e1.get hn))]
      simp only [T.node, T.kids, List.map_nil, List.length_nil, beq_self_eq_true, Bool.or_true, if_true]
      exact hc
  | succ H ih =>
    intro root fuel t s a path hw hrep hcoh hg hsrt hdef haddr
    cases fuel with
    | zero => exact Grown.refl _ _
    | succ fuel =>
      have h8 := goodN_keys hg
      have hn : s.heap[a]? = some t.node := by rw [hcoh _ (T.ref_mem_refs t) a haddr]; exact hrep.node
      obtain ⟨r, ks, ts⟩ := t
      obtain ⟨hlen, hfill, hkids⟩ := hg
      rw [T.flat] at hsrt hdef
      have hks := keys_sublist ks ts
      obtain ⟨⟨m, i⟩, s1, h1, e1, hp⟩ := getIndexOfKey_run hw hn key
        (List.Pairwise.sublist hks hsrt) (fun q hq => hdef q (hks.subset hq))
      have hc := getIndexOfKey_cost hn h8 key
      rw [h1] at hc
      unfold nearestLoop
      rw [bind_ok h1]
      simp only []
      rw [bind_ok (isLeaf_run (e1.get hn))]
      cases m with
      | some q =>
        simp only [Option.isSome_some, Bool.true_or, if_true]
        exact hc.mono (by omega)
      | none =>
        simp only [SearchPost] at hp
        obtain ⟨hile, _, _⟩ := hp
        have hleaf : (((T.mk r ks ts).node.children).length == 0) = false := by
          simp [T.node, T.kids]; intro h; simp [h] at hlen
        rw [hleaf]
        simp only [Option.isSome_none, Bool.or_false, Bool.false_eq_true, if_false]
        have hile : i ≤ ks.length := hile
        have hits : i < ts.length := by omega
        have hmem : ts[i] ∈ ts := List.getElem_mem hits
        have hrepc := hrep.kids _ hmem
        obtain ⟨m, hm⟩ := hrepc.refs_some _ (T.ref_mem_refs _)
        obtain ⟨a2, s2, h2, e2, ha2⟩ := getChild_run e1.wf (e1.get hn) (i := i) (r := (ts[i]).ref)
          (by simp [T.node, T.kids, List.getElem?_eq_getElem hits]) (m := m) (by rw [e1.core]; exact hm)
        have hc2 := Costs.getChild a i s1
        rw [h2] at hc2
        rw [bind_ok h2]
        have e12 := e1.trans e2
        have hksplit : ks = ks.take i ++ ks.drop i := (List.take_append_drop i ks).symm
        have htsplit : ts = ts.take i ++ ts[i] :: ts.drop (i + 1) := by
          rw [List.getElem_cons_drop, List.take_append_drop]
        have hA : (ts.take i).length = (ks.take i).length := by simp; omega
        have hB : (ts.drop (i + 1)).length = (ks.drop i).length := by simp; omega
        have hflat : flatL ks ts = preF (ks.take i) (ts.take i) ++ (ts[i]).flat
            ++ postF (ks.drop i) (ts.drop (i + 1)) := by
          conv => lhs; rw [hksplit, htsplit]
          exact flatL_hole hA hB _
        rw [hflat] at hsrt hdef
        have hs1 := List.pairwise_append.mp hsrt
        have hs2 := List.pairwise_append.mp hs1.1
        have hcoh2 : Coh s2 (· ∈ (ts[i]).refs) :=
          (e12.coh hw hcoh).mono fun r' hr' => by
            simp only [T.refs, List.mem_cons]
            exact .inr (mem_refsL.mpr ⟨_, hmem, hr'⟩)
        have h3 := ih false fuel ts[i] s2 a2 ((a, i) :: path) e2.wf (by rw [e12.core]; exact hrepc) hcoh2
          (hkids _ hmem) (by rw [e12.core]; exact hs2.2.1)
          (by rw [e12.core]; exact fun q hq => hdef q (by simp [hq])) ha2
        exact ((hc.trans hc2).trans h3).mono (by omega)

theorem get_cost {s : St} {H : Nat} {t : T} (ht : TreeAt s.core H t) (hw : SWF s) (hc : Coh s (· ∈ t.refs))
    (key : Bytes) : Grown (5 * (H + 1) + 1) s (get key s).2 := by
  obtain ⟨a, s1, h1, e1, ha⟩ := getRoot_run ht hw false
  have ht1 : TreeAt s1.core H t := by rw [e1.core]; exact ht
  have c1 : Grown 1 s s1 := by
    have : Grown 1 s (getRoot false s).2 := by
      unfold getRoot
      rw [bind_ok (version_run s), if_neg (by have := ht.two; omega)]
      unfold getTreeNode
      exact (Costs.bind (Costs.blocksGet _) fun e => Costs.bind Costs.orPanic fun r => Costs.pure) s
    rwa [h1] at this
  obtain ⟨m, a', i, fs, n, s2, h2, e2, hf⟩ := nearestNode_run (.finite key) ht1 e1.wf (e1.coh hw hc) ha
  have c2 : Grown (5 * H + 4) s1 s2 := by
    have := nearestLoop_cost (.finite key) H true (stepBound s1.core) t s1 a [] e1.wf ht1.rep (e1.coh hw hc) ht1.good
      ht1.srt ht1.dfd ha
    have hx : nearestNode a (.finite key) s1 = nearestLoop (.finite key) (stepBound s1.core) a [] s1 := rfl
    rwa [← hx, h2] at this
  unfold get
  rw [bind_ok h1]
  simp only []
  rw [bind_ok h2]
  simp only []
  have c12 := c1.trans c2
  cases m with
  | none => exact c12.mono (by omega)
  | some q =>
    simp only [Option.isSome_some, if_true, List.head?_cons, orPanic_some, pure_bind_run]
    exact (c12.trans ((Costs.bind (Costs.getKeyValue _ _) fun kv => Costs.pure) s2)).mono (by omega)

/-! ## The other blocks are not needed -/

/-- With only the blocks `m` ends up having in the cache, `m` does the same. -/
structure Spares {α : Type} (m : M α) : Prop where
  grows : ∀ s q, s.cache q ≠ none → (m s).2.cache q ≠ none
  same : ∀ s a t io, m s = (.ok a, t) → (∀ q, t.cache q ≠ none → s.cache q ≠ none ∨ io.readable q = true) →
    m { s with io := io } = (.ok a, { t with io := io })

theorem spares_looks : Looks (fun _ m => Spares m) where
  pure a := ⟨fun s q h => h, fun s a' t io h _ => by cases h; rfl⟩
  throw e := ⟨fun s q h => h, fun s a' t io h _ => by cases h⟩
  bind {α β m f} hm hf := by
    refine ⟨fun s q h => ?_, fun s a t io h hr => ?_⟩
    · rw [bind_run]
      have h1 := hm.grows s q h
      cases hr : m s with
      | mk r s1 =>
        rw [hr] at h1
        cases r with
        | error e => exact h1
        | ok a => exact (hf a).grows s1 q h1
    · rw [bind_run] at h
      cases hm1 : m s with
      | mk r s1 =>
        rw [hm1] at h
        cases r with
        | error e => cases h
        | ok b =>
          simp only at h
          have g1 := hm.grows s
          rw [hm1] at g1
          have g2 := (hf b).grows s1
          rw [h] at g2
          rw [bind_ok (hm.same s b s1 io hm1 fun q hq => hr q (g2 q hq))]
          exact (hf b).same s1 a t io h fun q hq => (hr q hq).imp (g1 q) id
  readNode a := by
    refine ⟨fun s q h => ?_, fun s n t io h _ => ?_⟩
    · unfold readNode; split <;> exact h
    · unfold readNode at h ⊢
      simp only at h ⊢
      cases hh : s.heap[a]? with
      | none => rw [hh] at h; cases h
      | some n' => rw [hh] at h; simp only at h ⊢; cases h; rfl
  version := ⟨fun s q h => h, fun s a t io h _ => by cases h; rfl⟩
  descentFuel := ⟨fun s q h => h, fun s a t io h _ => by cases h; rfl⟩
  blocksGet q := by
    refine ⟨fun s q' h => ?_, fun s e t io h hr => ?_⟩
    · rcases blocksGet_cases q s with ⟨e, _, h1⟩ | ⟨_, ⟨_, h1⟩ | ⟨_, ⟨b, _, h1⟩ | ⟨_, _, e, xs, h1, _⟩⟩⟩ <;> rw [h1]
      · exact h
      · exact h
      · simp only [loaded, cacheInsert]
        split
        · simp
        · exact h
      · exact h
    · rcases blocksGet_cases q s with ⟨e', he', h1⟩ | ⟨hq, ⟨_, h1⟩ | ⟨_, ⟨b, hb, h1⟩ | ⟨_, _, e, xs, h1, _⟩⟩⟩ <;>
        rw [h1] at h <;> cases h
      · rcases blocksGet_cases q { s with io := io } with ⟨e2, he2, h2⟩ | ⟨hq2, _⟩
        · rw [h2]
          rw [show ({ s with io := io } : St).cache q = s.cache q from rfl, he'] at he2
          cases he2
          rfl
        · rw [show ({ s with io := io } : St).cache q = s.cache q from rfl, he'] at hq2
          cases hq2
      · have hread : io.readable q = true := by
          rcases hr q (by simp [loaded, cacheInsert]) with h | h
          · exact absurd hq h
          · exact h
        have hlt := blockAt_lt hb
        rcases blocksGet_cases q { s with io := io } with ⟨e2, he2, h2⟩ | ⟨hq2, ⟨hx, h2⟩ | ⟨_, ⟨b', hb', h2⟩ | ⟨_, hx, _⟩⟩⟩
        · rw [show ({ s with io := io } : St).cache q = s.cache q from rfl, hq] at he2
          cases he2
        · rcases hx with hx | hx
          · rw [show ({ s with io := io } : St).io.readable q = io.readable q from rfl, hread] at hx; cases hx
          · simp only at hx; omega
        · rw [h2]
          rw [show ({ s with io := io } : St).core = s.core from rfl, hb] at hb'
          cases hb'
          rfl
        · rw [show ({ s with io := io } : St).core = s.core from rfl, hb] at hx
          cases hx

end Hyperbee
