import Verif.Proof.Share
import Verif.Props.Demo
/-!
# Versions share what did not change

Property C92.
-/

namespace Hyperbee

/-- C92.  What a version has of nodes older than another version, that version has too: nothing but the nodes
written since distinguishes a version from an earlier one. -/
theorem version_shares {s : St} (hs : Reachable s) {m n p j : Nat} (h : InVersion s.core m p j) (h2 : 2 ≤ n) (hn : n ≤ m)
    (hp : p < n) : InVersion s.core n p j := by
  have hsh := hs.shares
  obtain ⟨k, rfl⟩ := Nat.exists_eq_add_of_le hn
  clear hn
  induction k with
  | zero => exact h
  | succ k ih =>
    refine ih ?_
    have hl := h.2.1
    obtain ⟨H, t, ht, _⟩ := hsh.tree (n + k) (by omega) (by omega)
    obtain ⟨H', t', ht', _⟩ := hsh.tree (n + k + 1) (by omega) hl
    refine (ht.version (by omega)).mpr ((hsh.next (n + k) (by omega) hl H t H' t' ht ht').1 _ ((ht'.version hl).mp h) ?_)
    show p ≠ n + k
    omega

/-- C92.  Nothing is written in vain: every node of a block belongs to the version the block was written
for. -/
theorem written_in_version {s : St} (hs : Reachable s) {p j : Nat} {m : NodeSchema} {ls : List Level} (h1 : 1 ≤ p)
    (hb : wireBlock s.core p = some (m, ls)) (hj : j < ls.length) : InVersion s.core (p + 1) p j := by
  have hp : p < s.core.length := by
    unfold wireBlock at hb
    cases h : s.core[p]? with
    | none => rw [h] at hb; cases hb
    | some b => exact (List.getElem?_eq_some_iff.mp h).1
  obtain ⟨H, t, ht, hn⟩ := hs.shares.tree (p + 1) (by omega) (by omega)
  have hl : (s.core.take (p + 1)).length - 1 = p := by simp; omega
  refine (ht.version (by omega)).mpr ?_
  obtain ⟨k, v, ns, hc, hns, -, -⟩ := hn.block
  have hoff := hn.offs
  rw [hl] at hc hns hoff
  -- as many nodes as the block was written with
  have hblk : blockAt s.core p = some ⟨ns, k, v⟩ := by
    have e1 : s.core[p]? = some (encodeBlock k v ns) := by
      have e2 : (s.core.take (p + 1))[p]? = s.core[p]? := by rw [List.getElem?_take]; simp
      rw [← e2, hc, List.getElem?_append_right (by simp; omega)]
      have : p - ((s.core.take (p + 1)).take p).length = 0 := by simp; omega
      rw [this]
      rfl
    have := blockAt_last (s.core.take p) (encodeBlock k v ns)
    rw [blockOf_encodeBlock, show (s.core.take p).length = p by simp; omega] at this
    have e3 : s.core.take (p + 1) = s.core.take p ++ [encodeBlock k v ns] := by
      rw [List.take_add_one, e1]; rfl
    rw [← e3] at this
    have e4 := blockAt_append (core := s.core.take (p + 1)) (q := p) (ext := s.core.drop (p + 1)) (by simp; omega)
    rw [List.take_append_drop] at e4
    rw [e4, this]
  obtain ⟨m', ls', w1, _, _, w4⟩ := wireBlock_blockAt hblk
  rw [w1] at hb
  cases hb
  have hlen := (levelsToNodes_get w4).1
  have hjo : j ∈ t.offs p := by
    rw [hoff, ← hns]
    exact List.mem_range.mpr (by simp only at hlen; omega)
  rw [T.offs_news] at hjo
  obtain ⟨u, hu, rfl⟩ := List.mem_map.mp hjo
  have hseq : t.ref.seq = p := by rw [ht.ref]; exact hl
  have h1 := T.news_seq hseq u hu
  have h2 : u.ref ∈ t.refs := by
    have : ∀ w ∈ t.news p, ∀ r ∈ w.refs, r ∈ t.refs := by
      refine T.news_all (P := fun w => ∀ r ∈ w.refs, r ∈ t.refs) ?_ (fun r hr => hr)
      intro w hw x hx r hr
      refine hw r ?_
      rw [T.refs_kids]
      exact List.mem_cons_of_mem _ (mem_refsL.mpr ⟨x, hx, hr⟩)
    exact this u hu _ u.ref_mem
  have : u.ref = ⟨p, u.ref.offset⟩ := by rw [← h1]
  rw [this] at h2
  exact h2

/-- C92.  The versions a node belongs to are an uninterrupted run, and the first is the one it was
written for. -/
theorem node_life {s : St} (hs : Reachable s) {m p j : Nat} (h : InVersion s.core m p j) :
    1 ≤ p ∧ p < m ∧ ∀ n, p < n → n ≤ m → InVersion s.core n p j := by
  obtain ⟨H, t, ht, _⟩ := hs.shares.tree m h.1 h.2.1
  have hm := (ht.version h.2.1).mp h
  have hlt : p < m := by
    have := ht.rep.seq_lt _ hm
    simpa [h.2.1] using this
  have hpos : 1 ≤ p := by
    refine Nat.pos_of_ne_zero ?_
    rintro rfl
    have h2 := version_shares hs h (Nat.le_refl 2) h.1 (by omega)
    obtain ⟨H, t, ht, _⟩ := hs.shares.tree 2 h2.1 h2.2.1
    have := hs.shares.first h2.2.1 H t ht _ ((ht.version h2.2.1).mp h2)
    cases this
  exact ⟨hpos, hlt, fun n h1 h2 => version_shares hs h (by omega) h2 h1⟩

/-- C92.  A write replaces few nodes: what the version before it has and the new one has not are at most
twice as many nodes as the new block has, and one. -/
theorem few_dropped {s : St} (hs : Reachable s) {n : Nat} {m : NodeSchema} {ls : List Level} (h2 : 2 ≤ n)
    (hb : wireBlock s.core n = some (m, ls)) : ∃ l : List (Nat × Nat), l.Nodup ∧
      (∀ p j, (p, j) ∈ l ↔ InVersion s.core n p j ∧ ¬ InVersion s.core (n + 1) p j) ∧ l.length ≤ 2 * ls.length + 1 := by
  have hn : n < s.core.length := by
    unfold wireBlock at hb
    cases h : s.core[n]? with
    | none => rw [h] at hb; cases hb
    | some b => exact (List.getElem?_eq_some_iff.mp h).1
  obtain ⟨H, t, ht, _⟩ := hs.shares.tree n h2 (by omega)
  obtain ⟨H', t', ht', _⟩ := hs.shares.tree (n + 1) (by omega) hn
  obtain ⟨hlive, hlen⟩ := hs.shares.next n h2 hn H t H' t' ht ht'
  have hr : Rep (nodeAt s.core) t := by
    have := rep_append ht.rep (s.core.drop n)
    rwa [List.take_append_drop] at this
  have hr' : Rep (nodeAt s.core) t' := by
    have := rep_append ht'.rep (s.core.drop (n + 1))
    rwa [List.take_append_drop] at this
  have hd := dropped_few hr ht.good ht.nodup hr' ht'.good ht'.nodup hlen
  refine ⟨(t.refs.filter fun r => !decide (r ∈ t'.refs)).map fun r => (r.seq, r.offset), ?_, ?_, ?_⟩
  · refine List.Nodup.map ?_ (ht.nodup.filter _)
    rintro ⟨a, b⟩ ⟨a', b'⟩ h
    simpa using h
  · intro p j
    rw [ht.version (by omega), ht'.version hn]
    simp only [List.mem_map, List.mem_filter, Bool.not_eq_true', decide_eq_false_iff_not]
    constructor
    · rintro ⟨⟨a, b⟩, h1, h2⟩
      cases h2
      exact h1
    · intro h
      exact ⟨⟨p, j⟩, h, rfl⟩
  · rw [List.length_map]
    refine Nat.le_trans hd ?_
    have : (t'.refs.filter fun r => !decide (r ∈ t.refs)).length ≤ ls.length := by
      have hnew : ∀ r ∈ t'.refs.filter (fun r => !decide (r ∈ t.refs)), r.seq = n ∧ r.offset < ls.length := by
        intro r hr0
        obtain ⟨h1, h2⟩ := List.mem_filter.mp hr0
        simp only [Bool.not_eq_true', decide_eq_false_iff_not] at h2
        have h3 : r.seq = n := Classical.byContradiction fun hne => h2 (hlive r h1 hne)
        refine ⟨h3, ?_⟩
        obtain ⟨nd, hnd⟩ := hr'.refs_some r h1
        obtain ⟨m', ls', l, w1, w2, _⟩ := node_wire (q := r.seq) (i := r.offset) hnd
        rw [h3, hb] at w1
        cases w1
        exact (List.getElem?_eq_some_iff.mp w2).1
      have hnd : ((t'.refs.filter fun r => !decide (r ∈ t.refs)).map Child.offset).Nodup := by
        refine List.Nodup.map_on ?_ (ht'.nodup.filter _)
        rintro ⟨a, b⟩ ha ⟨a', b'⟩ ha' h
        have h1 := (hnew _ ha).1
        have h2 := (hnew _ ha').1
        simp only at h h1 h2
        rw [h, h1, h2]
      have := List.Nodup.length_le_of_subset hnd (l₂ := List.range ls.length) fun x hx => by
        obtain ⟨r, hr0, rfl⟩ := List.mem_map.mp hx
        exact List.mem_range.mpr (hnew r hr0).2
      simpa using this
    omega

/-- C92.  The nodes of a version form a tree: no node is the child of two nodes, nor twice the child of one. -/
theorem version_tree {s : St} (hs : Reachable s) {n q i q' i' k k' : Nat} {r : Nat × Nat} (h : InVersion s.core n q i)
    (h' : InVersion s.core n q' i') (hc : ChildAt s.core q i k r) (hc' : ChildAt s.core q' i' k' r) :
    q = q' ∧ i = i' ∧ k = k' := by
  obtain ⟨H, t, ht, _⟩ := hs.shares.tree n h.1 h.2.1
  have hr : Rep (nodeAt s.core) t := by
    have := rep_append ht.rep (s.core.drop n)
    rwa [List.take_append_drop] at this
  have kid : ∀ {q i k : Nat}, InVersion s.core n q i → ChildAt s.core q i k r → ∃ u x, Sub u t ∧ u.ref = ⟨q, i⟩ ∧
      u.kids[k]? = some x ∧ x.ref = ⟨r.1, r.2⟩ := by
    rintro q i k hv ⟨m, ls, l, refs, w1, w2, w3, w4⟩
    obtain ⟨u, hu, e⟩ := t.sub_of_ref _ ((ht.version h.2.1).mp hv)
    have hn := (hu.rep hr).node
    rw [e] at hn
    obtain ⟨_, e2⟩ := wire_node hn w1 w2
    rw [w3] at e2
    have e3 : refs = u.node.children.map fun c => (c.seq, c.offset) := by
      refine flatMap_pair_inj ?_
      rw [e2, List.flatMap_map]
    have e4 : u.node.children = u.kids.map T.ref := by cases u; rfl
    rw [e3, e4, List.map_map, List.getElem?_map, Option.map_eq_some_iff] at w4
    obtain ⟨x, hx, rfl⟩ := w4
    exact ⟨u, x, hu, e, hx, rfl⟩
  obtain ⟨u, x, hu, eu, hx, ex⟩ := kid h hc
  obtain ⟨w, y, hw, ew, hy, ey⟩ := kid h' hc'
  obtain ⟨h1, h2⟩ := one_parent t ht.nodup hu hw hx hy (ex.trans ey.symm)
  rw [eu, ew] at h1
  cases h1
  exact ⟨rfl, rfl, h2⟩

/-! ## A case -/

/-- Looks for node `j` of block `p` at node `i` of block `q` and below it, so many levels deep. -/
def findBelow (core : List Bytes) (p j : Nat) : Nat → Nat → Nat → Bool
  | 0, _, _ => false
  | f + 1, q, i =>
    match wireBlock core q with
    | none => false
    | some (_, ls) =>
      match ls[i]? with
      | none => false
      | some l =>
        (q == p && i == j) ||
        match pairUp l.children with
        | none => false
        | some cs => cs.any fun c => findBelow core p j f c.seq c.offset

theorem findBelow_spec {core : List Bytes} {p j : Nat} : ∀ {f q i : Nat}, findBelow core p j f q i = true → Below core p j q i := by
  intro f
  induction f with
  | zero => intro q i h; cases h
  | succ f ih =>
    intro q i h
    unfold findBelow at h
    cases hw : wireBlock core q with
    | none => rw [hw] at h; cases h
    | some x =>
      obtain ⟨m, ls⟩ := x
      rw [hw] at h
      simp only at h
      cases hl : ls[i]? with
      | none => rw [hl] at h; cases h
      | some l =>
        rw [hl] at h
        simp only [Bool.or_eq_true, Bool.and_eq_true, beq_iff_eq] at h
        rcases h with ⟨rfl, rfl⟩ | h
        · exact .here hw (List.getElem?_eq_some_iff.mp hl).1
        · cases hc : pairUp l.children with
          | none => rw [hc] at h; cases h
          | some cs =>
            rw [hc] at h
            obtain ⟨c, hm, h⟩ := List.any_eq_true.mp h
            refine .child (refs := cs.map fun c => (c.seq, c.offset)) (r := (c.seq, c.offset)) hw hl ?_
              (List.mem_map_of_mem hm) (ih h)
            rw [List.flatMap_map]
            exact pairUp_inv hc

/-- Node 1 of block 29 belongs to version 40 of the demo, so to all from 30. -/
example : ∀ n, 29 < n → n ≤ 40 → InVersion (runSt demo St.init).core n 29 1 :=
  (node_life demo_reachable ⟨by decide, by decide +kernel, findBelow_spec (f := 3) (by decide +kernel)⟩).2.2

/-- A deletion of the demo that merges: three nodes in the block, and the old node next to them stays. -/
example : (wireBlock (runSt demo St.init).core 39).map (fun x => x.2.length) = some 3 ∧
    findBelow (runSt demo St.init).core 30 1 3 38 0 = true ∧ findBelow (runSt demo St.init).core 30 1 3 39 0 = true ∧
    findBelow (runSt demo St.init).core 38 0 3 38 0 = true ∧ findBelow (runSt demo St.init).core 38 0 3 39 0 = false := by
  decide +kernel

/-- The top of version 40 has several children. -/
example : ∃ r, ChildAt (runSt demo St.init).core 39 0 1 r := by
  have h : ((wireBlock (runSt demo St.init).core 39).bind fun x => x.2[0]?.bind fun l => (pairUp l.children).map List.length) =
      some 4 := by decide +kernel
  cases hw : wireBlock (runSt demo St.init).core 39 with
  | none => rw [hw] at h; cases h
  | some x =>
    rw [hw] at h
    obtain ⟨m, ls⟩ := x
    simp only [Option.bind_some] at h
    cases hl : ls[0]? with
    | none => rw [hl] at h; cases h
    | some l =>
      rw [hl] at h
      simp only [Option.bind_some, Option.map_eq_some_iff] at h
      obtain ⟨cs, hc, hlen⟩ := h
      refine ⟨_, m, ls, l, cs.map fun c => (c.seq, c.offset), hw, hl, ?_, List.getElem?_eq_getElem (by simp; omega)⟩
      rw [List.flatMap_map]
      exact pairUp_inv hc

end Hyperbee
