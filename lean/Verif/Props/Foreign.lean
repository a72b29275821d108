import Verif.Proof.Foreign
import Verif.Props.Wire
import Verif.Props.Structure
/-!
# Cores written by others

Property C56: nothing depends on who wrote a core, or how.  Whatever program produced the blocks, if
they can be read and the newest one is the top of a B-tree, the library behaves as the database they
store, and what it adds is again such a core.
-/

namespace Hyperbee

open Wire

/-- A core in order: block 0 holds no nodes, the others can be read, and the newest is the top of the
B-tree `t`. -/
structure InOrder (core : List Bytes) (t : STree) : Prop where
  header : wireBlock core 0 = none
  reads : ∀ q b, 1 ≤ q → core[q]? = some b → ∃ k v nodes, Wire.Reads k v nodes b
  stores : StoresRoot core t
  btree : IsBTree t

/-- Block 0 of a core with a header holds no nodes. -/
theorem header_no_nodes {core : List Bytes} {m : Option (Option Bytes × Option Bytes)} {b : Bytes}
    (h : core[0]? = some b) (hb : CHeader hyperbeeName m b) : wireBlock core 0 = none := by
  have h1 := header_encode PROTOCOL (m.map fun m => ⟨m.1, m.2⟩)
  rw [Option.map_map, show ((fun m : Metadata => (m.contentFeed, m.userData)) ∘ fun m : Option Bytes × Option Bytes =>
    (⟨m.1, m.2⟩ : Metadata)) = id from rfl, Option.map_id, id, protocol_bytes] at h1
  have h2 := wireBlock_header (m.map fun m => ⟨m.1, m.2⟩)
  rw [protocol_bytes] at h2
  rw [← hb.unique h1] at h2
  unfold wireBlock at h2 ⊢
  rw [h]
  exact h2

theorem reads_block {k : Bytes} {v : Option Bytes} {nodes : List (List Nat × List (Nat × Nat))} {b : Bytes}
    (h : Wire.Reads k v nodes b) : ∃ ns, blockOf b = some ⟨ns, k, v⟩ := by
  obtain ⟨m, h1, rfl, rfl, h4⟩ := reads_blockOf h
  refine ⟨nodes.map fun n => (⟨n.1, n.2.map fun c => ⟨c.1, c.2⟩⟩ : Node), ?_⟩
  have h5 : nodes.map levelOf = (nodes.map fun n => (⟨n.1, n.2.map fun c => ⟨c.1, c.2⟩⟩ : Node)).map toLevel := by
    conv => lhs; rw [← unshape nodes]
    rw [List.map_map]
    exact List.map_congr_left fun n _ => (toLevel_eq n).symm
  have h6 := levelsToNodes_map (nodes.map fun n => (⟨n.1, n.2.map fun c => ⟨c.1, c.2⟩⟩ : Node))
  rw [← h5] at h6
  simp [blockOf, h1, h4, h6]

theorem InOrder.loads {core : List Bytes} {t : STree} (h : InOrder core t) : Loads core := by
  intro q x hx
  rcases Nat.eq_zero_or_pos q with rfl | hq
  · rw [h.header] at hx
    cases hx
  · cases hb : core[q]? with
    | none => simp [wireBlock, hb] at hx
    | some b =>
      obtain ⟨k, v, nodes, hr⟩ := h.reads q b hq hb
      obtain ⟨ns, hn⟩ := reads_block hr
      exact ⟨⟨ns, k, v⟩, by simp [blockAt, hb, hn]⟩

/-- The database a core in order stores. -/
def Shows (core : List Bytes) (t : STree) (d : Db) : Prop :=
  d.version = core.length ∧ ∀ k q v, d.map k = some (q, v) ↔
    (q, k) ∈ t.inorder ∧ ∃ b nodes, core[q]? = some b ∧ Wire.Reads k v nodes b

theorem InOrder.stored {core : List Bytes} {t : STree} (h : InOrder core t) : ∃ d, Stored core d ∧ Shows core t d := by
  obtain ⟨H, u, hu, rfl⟩ := treeAt_of_stores h.loads h.header h.stores h.btree
  have hval : ∀ q ∈ u.flat, ∃ b nodes, core[q]? = some b ∧ Wire.Reads (keyOf core q) (valOf core q) nodes b := by
    intro q hq
    obtain ⟨x, hx⟩ := hu.dfd q hq
    cases hb : core[q]? with
    | none => simp [blockAt, hb] at hx
    | some b =>
      obtain ⟨k, v, nodes, hr⟩ := h.reads q b (hu.pos q hq) hb
      obtain ⟨ns, hn⟩ := reads_block hr
      refine ⟨b, nodes, rfl, ?_⟩
      have : blockAt core q = some ⟨ns, k, v⟩ := by simp [blockAt, hb, hn]
      rwa [show keyOf core q = k by simp [keyOf, this], show valOf core q = v by simp [valOf, this]]
  have hinj : ∀ q ∈ u.flat, ∀ q' ∈ u.flat, keyOf core q = keyOf core q' → q = q' := by
    intro q hq q' hq' he
    have hs := hu.srt
    obtain ⟨i, hi, rfl⟩ := List.getElem_of_mem hq
    obtain ⟨j, hj, rfl⟩ := List.getElem_of_mem hq'
    rcases Nat.lt_trichotomy i j with hij | hij | hij
    · have := List.pairwise_iff_getElem.mp hs i j hi hj hij
      rw [he] at this
      exact absurd this (List.lt_irrefl _)
    · subst hij; rfl
    · have := List.pairwise_iff_getElem.mp hs j i hj hi hij
      rw [he] at this
      exact absurd this (List.lt_irrefl _)
  let d : Db := ⟨core.length, fun k => (u.flat.find? fun q => keyOf core q = k).map fun q => (q, valOf core q)⟩
  have hmap : ∀ k q v, d.map k = some (q, v) ↔ q ∈ u.flat ∧ keyOf core q = k ∧ valOf core q = v := by
    intro k q v
    simp only [d, Option.map_eq_some_iff, Prod.mk.injEq]
    constructor
    · rintro ⟨q', h1, rfl, rfl⟩
      exact ⟨List.mem_of_find?_eq_some h1, by simpa using List.find?_some h1, rfl⟩
    · rintro ⟨h1, h2, rfl⟩
      cases hf : u.flat.find? fun q => keyOf core q = k with
      | none => exact absurd h2 (by simpa using List.find?_eq_none.mp hf q h1)
      | some q' =>
        have h3 : keyOf core q' = k := by simpa using List.find?_some hf
        have := hinj q' (List.mem_of_find?_eq_some hf) q h1 (h3.trans h2.symm)
        subst this
        exact ⟨_, rfl, rfl, rfl⟩
  refine ⟨d, ⟨rfl, .inr ⟨H, u, hu, hmap⟩⟩, rfl, fun k q v => ?_⟩
  rw [hmap, spec_inorder, List.mem_map]
  constructor
  · rintro ⟨h1, rfl, rfl⟩
    exact ⟨⟨q, h1, rfl⟩, hval q h1⟩
  · rintro ⟨⟨q', h1, h2⟩, b, nodes, h3, h4⟩
    cases h2
    obtain ⟨b', nodes', h5, h6⟩ := hval q h1
    rw [h3] at h5
    cases h5
    obtain ⟨-, h7, -⟩ := reads_unique h4 h6
    exact ⟨h1, rfl, h7.symm⟩

/-! ## C56 -/

/-- C56.  On a core in order, whoever wrote it: there is one database with the core's length as its
version and the tree's keys, with the values in their blocks, as its contents, and every sequence of
calls is answered as by that database. -/
theorem foreign_core {core : List Bytes} {t : STree} (h : InOrder core t) :
    ∃ d, Shows core t d ∧ ∀ cs, d.Answers cs (runReplies cs (St.open core)) := by
  obtain ⟨d, h1, h2⟩ := h.stored
  exact ⟨d, h2, fun cs => (run_refines cs h1.open).1⟩

/-- There is only one such database. -/
theorem shows_unique {core : List Bytes} {t : STree} {d d' : Db} (h : Shows core t d) (h' : Shows core t d') : d = d' := by
  obtain ⟨n, m⟩ := d
  obtain ⟨n', m'⟩ := d'
  have h1 : n = n' := h.1.trans h'.1.symm
  have h2 : m = m' := by
    funext k
    refine Option.ext fun x => ?_
    exact (h.2 k x.1 x.2).trans (h'.2 k x.1 x.2).symm
  rw [h1, h2]

theorem run_format {s : St} {d : Db} (h : Holds s d) (hne : s.core ≠ []) : ∀ cs : List Cmd,
    ∃ new, (runSt cs s).core = s.core ++ new ∧ ∀ b ∈ new, ∃ k v nodes, CBlock k v nodes b := by
  intro cs
  induction cs using snocInd with
  | nil => exact ⟨[], by simp [runSt, run], by simp⟩
  | snoc cs c ih =>
    obtain ⟨new, h1, h2⟩ := ih
    rw [runSt_snoc]
    have hs := exec_step (run_refines cs h).2 c
    have hn : (runSt cs s).core ≠ [] := by rw [h1]; simp [hne]
    cases he : effect c (exec c (runSt cs s)).1 with
    | none =>
      rcases hs.core_cases with ⟨e, _⟩ | ⟨h0, _⟩ | ⟨b, _, _, w, e⟩ | ⟨h0, _⟩
      · exact ⟨new, by rw [e, h1], h2⟩
      · exact absurd h0 hn
      · rw [he] at e; cases e
      · exact absurd h0 hn
    | some w =>
      obtain ⟨hdr, b, nodes, m, g1, g2, g3, -⟩ := hs.format he
      rcases g2 with ⟨-, rfl⟩ | ⟨h0, -⟩
      · refine ⟨new ++ [b], by rw [g1, h1]; simp, fun x hx => ?_⟩
        rcases List.mem_append.mp hx with hx | hx
        · exact h2 x hx
        · rw [List.mem_singleton.mp hx]
          exact ⟨_, _, _, g3⟩
      · exact absurd h0 hn

/-- C56: what a sequence of calls leaves behind is the old core followed by blocks in the format, and
the newest block is again the top of a B-tree, with exactly the keys the database then has. -/
theorem foreign_core_grows {core : List Bytes} {t : STree} (h : InOrder core t) {d : Db} (hd : Shows core t d) (cs : List Cmd) :
    ∃ new t', (runSt cs (St.open core)).core = core ++ new ∧ (∀ b ∈ new, ∃ k v nodes, CBlock k v nodes b) ∧
      StoresRoot (core ++ new) t' ∧ IsBTree t' ∧
      ∀ q k, (q, k) ∈ t'.inorder ↔ ∃ v, (d.after cs).map k = some (q, v) := by
  obtain ⟨d', h1, h2⟩ := h.stored
  cases shows_unique hd h2
  have hc : core ≠ [] := by
    rintro rfl
    obtain ⟨H, u, hu, -⟩ := treeAt_of_stores h.loads h.header h.stores h.btree
    have := hu.two
    simp at this
  obtain ⟨new, e, hn⟩ := run_format h1.open (show (St.open core).core ≠ [] from hc) cs
  have e' : (runSt cs (St.open core)).core = core ++ new := e
  have hh := (run_refines cs h1.open).2
  have hb := hh.store
  rw [e'] at hb
  rcases hb with hb | ⟨H, u, hu, _, hcon⟩
  · obtain ⟨H, u, hu, -⟩ := treeAt_of_stores h.loads h.header h.stores h.btree
    have := hu.two
    have := hb.1
    rw [List.length_append] at this
    omega
  · refine ⟨new, u.spec _, e', hn, hu.stores, hu.btree, fun q k => ?_⟩
    rw [spec_inorder, List.mem_map]
    constructor
    · rintro ⟨q', g1, g2⟩
      cases g2
      exact ⟨_, (hcon _ _ _).mpr ⟨g1, rfl, rfl⟩⟩
    · rintro ⟨v, hv⟩
      obtain ⟨g1, g2, -⟩ := (hcon k q v).mp hv
      exact ⟨q, g1, by rw [g2]⟩

/-- C56: on a core with nothing but block 0, whatever is in it, every sequence of calls is answered as
by an empty database of version 1. -/
theorem foreign_header (b : Bytes) (cs : List Cmd) :
    Db.Answers ⟨1, fun _ => none⟩ cs (runReplies cs (St.open [b])) :=
  (run_refines cs (Stored.open (c := [b]) ⟨rfl, .inl ⟨by simp, fun _ => rfl⟩⟩)).1

/-- A core no history of the library leads to: keys "b" and "a" written by someone who lays out fields
differently, and a header with metadata and an unknown field. -/
def foreignDemo : List Bytes :=
  [[0x0A, 0x08, 0x68, 0x79, 0x70, 0x65, 0x72, 0x62, 0x65, 0x65, 0x12, 0x02, 0x0A, 0x00, 0x20, 0x01],
   [0x12, 0x01, 0x62, 0x0A, 0x04, 0x0A, 0x02, 0x08, 0x01, 0x1A, 0x01, 0x07],
   [0x12, 0x01, 0x61, 0x0A, 0x06, 0x0A, 0x04, 0x08, 0x02, 0x08, 0x01]]

theorem foreignDemo_inOrder : InOrder foreignDemo (.node [(2, [0x61]), (1, [0x62])] []) := by
  refine ⟨by decide +kernel, ?_, ?_, ?_⟩
  · intro q b hq hb
    match q, hq, hb with
    | 1, _, hb =>
      cases hb
      exact ⟨[0x62], some [7], [([1], [])], (reader_exact _ _ _ [⟨[1], []⟩]).mp (by decide +kernel)⟩
    | 2, _, hb =>
      cases hb
      exact ⟨[0x61], none, [([2, 1], [])], (reader_exact _ _ _ [⟨[2, 1], []⟩]).mp (by decide +kernel)⟩
  · refine .mk (m := ⟨[0x0A, 0x04, 0x08, 0x02, 0x08, 0x01], [0x61], none⟩) (ls := [⟨[2, 1], []⟩]) (l := ⟨[2, 1], []⟩) (refs := [])
      (by decide +kernel) rfl rfl ?_ rfl rfl (by simp)
    intro k hk
    simp only [List.mem_cons, List.not_mem_nil, or_false] at hk
    rcases hk with rfl | rfl
    · exact ⟨⟨[0x0A, 0x04, 0x08, 0x02, 0x08, 0x01], [0x61], none⟩, [⟨[2, 1], []⟩], by decide +kernel, rfl⟩
    · exact ⟨⟨[0x0A, 0x02, 0x08, 0x01], [0x62], some [7]⟩, [⟨[1], []⟩], by decide +kernel, rfl⟩
  · exact ⟨by decide, ⟨1, by simp [STree.leafDepths]⟩, by simp [STree.subtrees, STree.subtrees.below, STree.kids],
      by simp [STree.subtrees, STree.subtrees.below, STree.keys], by simp [STree.proper, STree.subtrees.below],
      by simp [STree.kids]⟩

/-- Reading it and writing to it. -/
example : runReplies [.get [0x61], .get [0x62], .put [0x63] none, .del [0x62], .get [0x62]] (St.open foreignDemo) =
    [.got (some (2, none)), .got (some (1, some [7])), .put none 3, .del (some 1), .got none] := by decide +kernel

end Hyperbee
