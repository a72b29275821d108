import Verif.Proof.Check
import Verif.Props.Foreign
/-!
# What the check of the test suite finds

Properties C69 and C70.
-/

namespace Hyperbee

/-! ## C69 -/

theorem weave_keys : ∀ (ks : List (Nat × Bytes)) (ts : List STree), ks.Sublist (STree.inorder.weave ks ts)
  | ks, [] => by rw [STree.inorder.weave]
  | [], t :: ts => List.nil_sublist _
  | k :: ks, t :: ts => by
    rw [STree.inorder.weave]
    exact (weave_keys ks ts).cons_cons k |>.trans (List.sublist_append_right ..)

theorem weave_kid : ∀ {ks : List (Nat × Bytes)} {ts : List STree} {t : STree}, t ∈ ts →
    t.inorder.Sublist (STree.inorder.weave ks ts)
  | [], u :: ts, t, h => by
    rw [STree.inorder.weave]
    rcases List.mem_cons.mp h with rfl | h
    · exact List.sublist_append_left ..
    · exact (weave_kid h).trans (List.sublist_append_right ..)
  | k :: ks, u :: ts, t, h => by
    rw [STree.inorder.weave]
    rcases List.mem_cons.mp h with rfl | h
    · exact List.sublist_append_left ..
    · exact ((weave_kid h).cons k).trans (List.sublist_append_right ..)

theorem weave_left : ∀ {ks : List (Nat × Bytes)} {ts : List STree} {i : Nat} {t : STree} {k : Nat × Bytes}, ts[i]? = some t →
    ks[i]? = some k → (t.inorder ++ [k]).Sublist (STree.inorder.weave ks ts)
  | [], ts, i, t, k, _, h => by simp at h
  | k' :: ks, [], i, t, k, h, _ => by simp at h
  | k' :: ks, u :: ts, 0, t, k, h1, h2 => by
    cases h1
    cases h2
    rw [STree.inorder.weave]
    exact List.Sublist.append (List.Sublist.refl _) (List.Sublist.cons_cons _ (List.nil_sublist _))
  | k' :: ks, u :: ts, i + 1, t, k, h1, h2 => by
    rw [STree.inorder.weave]
    exact ((weave_left (by simpa using h1) (by simpa using h2)).cons k').trans (List.sublist_append_right ..)

theorem weave_right : ∀ {ks : List (Nat × Bytes)} {ts : List STree} {i : Nat} {t : STree} {k : Nat × Bytes}, ts[i + 1]? = some t →
    ks[i]? = some k → (k :: t.inorder).Sublist (STree.inorder.weave ks ts)
  | [], ts, i, t, k, _, h => by simp at h
  | k' :: ks, [], i, t, k, h, _ => by simp at h
  | k' :: ks, u :: ts, 0, t, k, h1, h2 => by
    cases h2
    rw [STree.inorder.weave]
    exact ((weave_kid (List.mem_of_getElem? (i := 0) (by simpa using h1))).cons_cons _).trans (List.sublist_append_right ..)
  | k' :: ks, u :: ts, i + 1, t, k, h1, h2 => by
    rw [STree.inorder.weave]
    exact ((weave_right (by simpa using h1) (by simpa using h2)).cons k').trans (List.sublist_append_right ..)

theorem keys_inorder (t : STree) : t.keys.Sublist t.inorder := by
  cases t with
  | node ks ts => rw [STree.inorder]; exact weave_keys ks ts

theorem sub_inorder (t : STree) : ∀ u ∈ t.subtrees, u.inorder.Sublist t.inorder := by
  induction t using STree.ind with
  | h ks ts ih =>
    intro u hu
    rcases mem_subtrees.mp hu with rfl | ⟨k, hk, hu⟩
    · exact List.Sublist.refl _
    · refine (ih k hk u hu).trans ?_
      rw [STree.inorder]
      exact weave_kid hk

/-- A B-tree passes. -/
theorem btree_checked {t : STree} (h : IsBTree t) : Checked t := by
  refine ⟨h.top, h.most t (mem_subtrees.mpr (.inl rfl)), h.children t (mem_subtrees.mpr (.inl rfl)), fun u hu => ?_⟩
  have hu' : u ∈ t.subtrees := by
    cases t with
    | node ks ts => exact List.mem_cons_of_mem _ hu
  have hs := h.sorted.sublist (sub_inorder t u hu')
  refine ⟨h.least u hu, h.most u hu', h.children u hu', hs.sublist (keys_inorder u), ?_, ?_⟩
  · intro i v f k h1 h2 h3
    cases u with
    | node ks ts =>
    have := hs.sublist (weave_left h1 h3)
    exact (List.pairwise_append.mp this).2.2 f ((keys_inorder v).subset (List.mem_of_head? h2)) k (by simp)
  · intro i v f k h1 h2 h3
    cases u with
    | node ks ts =>
    have := hs.sublist (weave_right h1 h3)
    exact (List.pairwise_cons.mp this).1 f ((keys_inorder v).subset (List.mem_of_head? h2))

/-- C69.  On every reachable state with a root, `check_tree` succeeds, and changes nothing but the
cache. -/
theorem check_accepts {s : St} (h : Reachable s) (h2 : 2 ≤ s.core.length) :
    ∃ s', checkTree s = (.ok (), s') ∧ s'.core = s.core := by
  obtain ⟨d, hs⟩ := h.holds
  rcases hs.store with hb | ⟨H, t, ht, hc, _⟩
  · have := hb.1; omega
  · rcases ends_tree ⟨hs.wf, ht.rep, hc, ht.dfd⟩ ht.ref h2 with ⟨_, _, s', h1, e, _⟩ | ⟨hn, _⟩
    · exact ⟨s', h1, e.core⟩
    · exact absurd (btree_checked ht.btree) hn

/-- Without a root it panics. -/
theorem check_no_root {s : St} (h1 : s.core.length ≤ 1) :
    checkTree s = (.error (.panic "test/mod.rs:116 we would only be checking an existing tree"), s) := by
  have hroot : getRoot false s = (.ok none, s) := by
    rcases Nat.lt_or_ge s.core.length 1 with hl | hl
    · exact getRoot_zero_false (by omega)
    · exact getRoot_one (by omega) false
  unfold checkTree
  rw [bind_ok hroot]
  rfl

/-- Where a block cannot be read the check does not return the error; it panics. -/
example : (checkTree { St.open (runSt ascending St.init).core with
      io := ⟨fun q => q + 1 == (runSt ascending St.init).core.length, true⟩ }).1 =
    .error (.panic "test/mod.rs:141 get child always works in tests") := by decide +kernel

/-- Three levels; the emptied database. -/
example : (checkTree (runSt ascending St.init)).1 = .ok () ∧ (checkTree (runSt demoEmptied St.init)).1 = .ok () := by
  decide +kernel

/-! ## C70 -/

/-- A core whose blocks can be read and whose newest is the top of some tree, of whatever form. -/
structure Legible (core : List Bytes) (t : STree) : Prop where
  two : 2 ≤ core.length
  reads : ∀ q b, 1 ≤ q → core[q]? = some b → ∃ k v nodes, Wire.Reads k v nodes b
  header : wireBlock core 0 = none
  stores : StoresRoot core t

/-- Exactly what `check_tree` finds: on a core with any tree at all it succeeds if the tree is
`Checked`, and panics if it is not. -/
theorem check_exact {core : List Bytes} {t : STree} (h : Legible core t) :
    (Checked t → (checkTree (St.open core)).1 = .ok ()) ∧
    (¬ Checked t → ∃ site, (checkTree (St.open core)).1 = .error (.panic site)) := by
  have hl : Loads core := by
    intro q x hx
    rcases Nat.eq_zero_or_pos q with rfl | hq
    · rw [h.header] at hx
      cases hx
    · cases hb : core[q]? with
      | none => simp [wireBlock, hb] at hx
      | some b =>
        obtain ⟨k, v, nodes, hr⟩ := h.reads q b hq hb
        obtain ⟨ns, hn⟩ := reads_block hr
        exact ⟨⟨ns, k, v⟩, by simp [blockAt, hb, hn]⟩
  obtain ⟨u, h1, h2, h3, h4⟩ := Stores.rep hl h.stores
  have := ends_tree (s := St.open core) (t := u) ⟨open_wf core, h1, open_coh core _, h4⟩ h2 h.two
  rw [show u.spec (St.open core).core = t from h3] at this
  rcases this with ⟨hp, a, s', g1, _⟩ | ⟨hp, p, s', g1, _⟩
  · exact ⟨fun _ => by rw [g1], fun hn => absurd hp hn⟩
  · exact ⟨fun hc => absurd hc hp, fun _ => ⟨p, by rw [g1]⟩⟩

/-- What it leaves out: a tree that passes is a B-tree if, and only if, its keys are in order as a whole
and its leaves equally deep. -/
theorem check_sound_partial {t : STree} : IsBTree t ↔ Checked t ∧ (t.inorder.Pairwise fun a b => a.2 < b.2) ∧
    ∃ h, ∀ d ∈ t.leafDepths, d = h := by
  constructor
  · exact fun h => ⟨btree_checked h, h.sorted, h.level⟩
  · rintro ⟨h1, h2, h3⟩
    have hs : ∀ u ∈ t.subtrees, u = t ∨ u ∈ t.proper := by
      intro u hu
      cases t with
      | node ks ts => exact List.mem_cons.mp hu
    refine ⟨h2, h3, fun u hu => ?_, fun u hu => ?_, fun u hu => (h1.below u hu).least, h1.top⟩
    · rcases hs u hu with rfl | hu
      · exact h1.children
      · exact (h1.below u hu).children
    · rcases hs u hu with rfl | hu
      · exact h1.most
      · exact (h1.below u hu).most

/-- The block with key `k` and the nodes `ls`. -/
def plainBlock (k : Bytes) (ls : List (List Nat × List (Nat × Nat))) : Bytes :=
  encodeBlock k none (ls.map fun l => ⟨l.1, l.2.map fun r => ⟨r.1, r.2⟩⟩)

/-- The keys of the top in the wrong order: `check_tree` is content, and `get` does not find a key. -/
def unsortedTop : List Bytes := [encodeHeader ⟨PROTOCOL, none⟩, plainBlock [2] [([1], [])], plainBlock [1] [([1, 2], [])]]

theorem unsortedTop_legible : Legible unsortedTop (.node [(1, [2]), (2, [1])] []) := by
  refine ⟨by decide, ?_, by decide +kernel, ?_⟩
  · intro q b hq hb
    match q, hq, hb with
    | 1, _, hb =>
      cases hb
      exact ⟨[2], none, [([1], [])], (reader_exact _ _ _ [⟨[1], []⟩]).mp (by decide +kernel)⟩
    | 2, _, hb =>
      cases hb
      exact ⟨[1], none, [([1, 2], [])], (reader_exact _ _ _ [⟨[1, 2], []⟩]).mp (by decide +kernel)⟩
  · refine .mk (m := ⟨encodeYolo [⟨[1, 2], []⟩], [1], none⟩) (ls := [⟨[1, 2], []⟩]) (l := ⟨[1, 2], []⟩) (refs := [])
      (by decide +kernel) rfl rfl ?_ rfl rfl (by simp)
    intro k hk
    simp only [List.mem_cons, List.not_mem_nil, or_false] at hk
    rcases hk with rfl | rfl
    · exact ⟨⟨encodeYolo [⟨[1], []⟩], [2], none⟩, [⟨[1], []⟩], by decide +kernel, rfl⟩
    · exact ⟨⟨encodeYolo [⟨[1, 2], []⟩], [1], none⟩, [⟨[1, 2], []⟩], by decide +kernel, rfl⟩

/-- C70 is false of the test suite: a tree that passes need not be a B-tree, and a key it holds need not
be found. -/
theorem check_sound_false : ∃ core t, Legible core t ∧ (checkTree (St.open core)).1 = .ok () ∧ ¬ IsBTree t ∧
    ∃ q k, (q, k) ∈ t.inorder ∧ (exec (.get k) (St.open core)).1 = .got none := by
  refine ⟨unsortedTop, _, unsortedTop_legible, by decide +kernel, fun h => ?_, 2, [1], by decide, by decide +kernel⟩
  have := h.sorted
  revert this
  decide

/-- A core with the keys `1` to `n`, one per block, and the nodes `ls` in the last block. -/
def forgedTree (n : Nat) (ls : List (List Nat × List (Nat × Nat))) : List Bytes :=
  encodeHeader ⟨PROTOCOL, none⟩ :: (List.range' 1 (n - 1)).map (fun i => plainBlock [UInt8.ofNat i] []) ++
    [plainBlock [UInt8.ofNat n] ls]

/-- Leaves of different depths pass, `height()` counting the levels on the left only; so does a subtree
of the top with keys that belong elsewhere, and a key below another node that is too great, as long as
it is not the first of its node. -/
example :
    (let core := forgedTree 29 [([5], [(29, 1), (29, 2)]), ([1, 2, 3, 4], []),
      ([10, 15, 20, 25], [(29, 3), (29, 4), (29, 5), (29, 6), (29, 7)]), ([6, 7, 8, 9], []), ([11, 12, 13, 14], []),
      ([16, 17, 18, 19], []), ([21, 22, 23, 24], []), ([26, 27, 28, 29], [])]
    (checkTree (St.open core)).1 = .ok () ∧ (height (St.open core)).1 = .ok 2) ∧
    (let core := forgedTree 9 [([1], [(9, 1), (9, 2)]), ([2, 3, 4, 5], []), ([6, 7, 8, 9], [])]
    (checkTree (St.open core)).1 = .ok () ∧ (exec (.get [2]) (St.open core)).1 = .got none) ∧
    (let core := forgedTree 30 [([5], [(30, 1), (30, 2)]), ([1, 2, 3, 4], []),
      ([10, 15, 20, 25], [(30, 3), (30, 4), (30, 5), (30, 6), (30, 7)]), ([6, 7, 8, 11], []), ([12, 13, 14, 16], []),
      ([17, 18, 19, 21], []), ([22, 23, 24, 26], []), ([27, 28, 29, 30], [])]
    (checkTree (St.open core)).1 = .ok () ∧ (exec (.get [11]) (St.open core)).1 = .got none) := by
  refine ⟨by decide +kernel, by decide +kernel, by decide +kernel⟩

/-- A key out of its place where it is looked at is found. -/
example : (checkTree (St.open (forgedTree 9 [([5], [(9, 1), (9, 2)]), ([2, 1, 3, 4], []), ([6, 7, 8, 9], [])]))).1 =
    .error (.panic "test/mod.rs:27 out of order") := by decide +kernel

end Hyperbee
