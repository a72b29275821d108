import Verif.Proof.STree
import Verif.Proof.Wire
/-!
# Cores that some other writer wrote

From the tree a core stores, in the words of `SpecTree`, to the invariant of the refinement.
-/

namespace Hyperbee

theorem mem_flatL_inv {q : Nat} : ∀ {ks : List Nat} {ts : List T}, q ∈ flatL ks ts → q ∈ ks ∨ ∃ u ∈ ts, q ∈ u.flat
  | ks, [], h => by rw [flatL_nil] at h; exact .inl h
  | [], t :: ts, h => by
    simp only [flatL, List.mem_append] at h
    rcases h with h | h
    · exact .inr ⟨t, by simp, h⟩
    · rcases mem_flatL_inv h with h | ⟨u, hu, h⟩
      · simp at h
      · exact .inr ⟨u, List.mem_cons_of_mem _ hu, h⟩
  | k :: ks, t :: ts, h => by
    simp only [flatL, List.mem_append, List.mem_cons] at h
    rcases h with h | h | h
    · exact .inr ⟨t, by simp, h⟩
    · exact .inl (by simp [h])
    · rcases mem_flatL_inv h with h | ⟨u, hu, h⟩
      · exact .inl (List.mem_cons_of_mem _ h)
      · exact .inr ⟨u, List.mem_cons_of_mem _ hu, h⟩

/-- Every block that can be read as a node block can be loaded. -/
def Loads (c : List Bytes) : Prop := ∀ q x, wireBlock c q = some x → ∃ b, blockAt c q = some b

theorem keyOf_wire {c : List Bytes} {q : Nat} {m : NodeSchema} {ls : List Level} {b : Blk}
    (h : wireBlock c q = some (m, ls)) (hb : blockAt c q = some b) :
    keyOf c q = m.key ∧ valOf c q = m.value ∧ levelsToNodes ls = some b.nodes := by
  obtain ⟨m', ls', h1, h2, h3, h4⟩ := wireBlock_blockAt hb
  rw [h] at h1
  cases h1
  exact ⟨by simp [keyOf, hb, h2], by simp [valOf, hb, h3], h4⟩

/-- A stored tree of keys is a stored tree of references. -/
theorem Stores.rep {c : List Bytes} (hl : Loads c) {q i : Nat} {st : STree} (h : Stores c q i st) :
    ∃ t, Rep (nodeAt c) t ∧ t.ref = ⟨q, i⟩ ∧ t.spec c = st ∧ ∀ p ∈ t.flat, ∃ b, blockAt c p = some b := by
  induction h with
  | @mk q i m ls l ks refs kids block level keys bytes children count below ih =>
    have hk : ∃ ts : List T, ts.map T.ref = refs.map (fun r => (⟨r.1, r.2⟩ : Child)) ∧ ts.map (T.spec c) = kids ∧
        ∀ t ∈ ts, Rep (nodeAt c) t ∧ ∀ p ∈ t.flat, ∃ b, blockAt c p = some b := by
      clear children below
      induction refs generalizing kids with
      | nil =>
        obtain rfl : kids = [] := List.length_eq_zero_iff.mp (by simpa using count)
        exact ⟨[], rfl, rfl, by simp⟩
      | cons r refs ihr =>
        cases kids with
        | nil => simp at count
        | cons k kids =>
          obtain ⟨ts, h1, h2, h3⟩ := ihr (by simpa using count) fun j r' t hr ht =>
            ih (j + 1) r' t (by simpa using hr) (by simpa using ht)
          obtain ⟨t, h4, h5, h6, h7⟩ := ih 0 r k (by simp) (by simp)
          refine ⟨t :: ts, by simp [h1, h5], by simp [h2, h6], fun u hu => ?_⟩
          rcases List.mem_cons.mp hu with rfl | hu
          · exact ⟨h4, h7⟩
          · exact h3 u hu
    obtain ⟨ts, h1, h2, h3⟩ := hk
    obtain ⟨b, hb⟩ := hl q _ block
    obtain ⟨-, -, hn⟩ := keyOf_wire block hb
    obtain ⟨hlen, hget⟩ := levelsToNodes_get hn
    have hi : i < b.nodes.length := by rw [← hlen]; exact (List.getElem?_eq_some_iff.mp level).1
    obtain ⟨l', g1, g2, g3⟩ := hget i _ (List.getElem?_eq_getElem hi)
    rw [level] at g1
    cases g1
    have hc : b.nodes[i].children = refs.map fun r => (⟨r.1, r.2⟩ : Child) := by
      rw [children] at g3
      have h5 : (refs.flatMap fun r => [r.1, r.2]) =
          ((b.nodes[i].children.map fun c => (c.seq, c.offset)).flatMap fun r => [r.1, r.2]) := by
        rw [g3, List.flatMap_map]
      rw [flatMap_pair_inj h5, List.map_map]
      exact (List.map_id' _).symm
    refine ⟨.mk ⟨q, i⟩ (ks.map (·.1)) ts, .mk ?_ fun t ht => (h3 t ht).1, rfl, ?_, ?_⟩
    · unfold nodeAt
      rw [hb]
      simp only [Option.bind_some]
      rw [List.getElem?_eq_getElem hi, h1, ← hc, ← keys, g2]
    · simp only [T.spec, h2, List.map_map]
      congr 1
      refine (List.map_congr_left (g := id) fun k hk => ?_).trans (List.map_id _)
      obtain ⟨m', ls', h5, h6⟩ := bytes k hk
      obtain ⟨b', hb'⟩ := hl _ _ h5
      obtain ⟨h7, -⟩ := keyOf_wire h5 hb'
      simp [h7, h6]
    · intro p hp
      simp only [T.flat] at hp
      rcases mem_flatL_inv hp with hp | ⟨u, hu, hp⟩
      · obtain ⟨k, hk, rfl⟩ := List.mem_map.mp hp
        obtain ⟨m', ls', h5, -⟩ := bytes k hk
        exact hl _ _ h5
      · exact (h3 u hu).2 p hp

theorem good_of_spec {c : List Bytes} : ∀ (t : T) (root : Bool) (H : Nat),
    (∀ u ∈ (t.spec c).subtrees, u.kids = [] ∨ u.kids.length = u.keys.length + 1) →
    (∀ u ∈ (t.spec c).subtrees, u.keys.length ≤ 8) → (∀ u ∈ (t.spec c).proper, 4 ≤ u.keys.length) →
    (root = false → 4 ≤ t.keys.length) → (t.kids ≠ [] → 1 ≤ t.keys.length) →
    (∀ d ∈ (t.spec c).leafDepths, d = H + 1) → GoodN root H t := by
  intro t
  induction t using T.ind with
  | h r ks ts ih =>
    intro root H hch hmost hleast hfour htop hlev
    have hself := hch _ (mem_subtrees.mpr (.inl rfl))
    have hself8 := hmost _ (mem_subtrees.mpr (.inl rfl))
    rw [spec_kids, spec_keys] at hself
    rw [spec_keys] at hself8
    simp only [T.kids, T.keys, List.length_map, List.map_eq_nil_iff] at hself hself8 hfour htop
    cases ts with
    | nil =>
      have h0 : H = 0 := by
        have := hlev 1 (by simp [T.spec, STree.leafDepths])
        omega
      subst h0
      exact ⟨rfl, hself8, hfour, fun _ h => absurd h (by omega)⟩
    | cons t0 ts =>
      have hlen : (t0 :: ts).length = ks.length + 1 := by
        rcases hself with h | h
        · cases h
        · exact h
      have hin : ∀ u ∈ t0 :: ts, ∀ d ∈ (u.spec c).leafDepths, d + 1 = H + 1 := by
        intro u hu d hd
        refine hlev (d + 1) ?_
        simp only [T.spec, List.map_cons, STree.leafDepths]
        refine List.mem_map.mpr ⟨d, ?_, rfl⟩
        rw [← List.map_cons (f := T.spec c)]
        exact mem_depths.mpr ⟨_, List.mem_map.mpr ⟨u, hu, rfl⟩, hd⟩
      cases H with
      | zero =>
        exfalso
        have hne := spec_depths_ne c t0
        obtain ⟨d, hd⟩ := List.exists_mem_of_ne_nil _ hne
        have := hin t0 (by simp) d hd
        obtain ⟨r0, ks0, ts0⟩ := t0
        cases ts0 with
        | nil => simp [T.spec, STree.leafDepths] at hd; omega
        | cons x xs =>
          simp only [T.spec, List.map_cons, STree.leafDepths] at hd
          obtain ⟨d', -, rfl⟩ := List.mem_map.mp hd
          omega
      | succ H =>
        refine ⟨hlen, ⟨hself8, hfour, fun _ _ => htop (by simp)⟩, fun u hu => ?_⟩
        have hsub : ∀ x ∈ (u.spec c).subtrees, x ∈ (T.spec c (.mk r ks (t0 :: ts))).proper := by
          intro x hx
          simp only [T.spec, STree.proper]
          exact mem_below.mpr ⟨_, List.mem_map.mpr ⟨u, hu, rfl⟩, hx⟩
        have hsub' : ∀ x ∈ (u.spec c).subtrees, x ∈ (T.spec c (.mk r ks (t0 :: ts))).subtrees := by
          intro x hx
          refine mem_subtrees.mpr (.inr ⟨u.spec c, ?_, hx⟩)
          simp only [T.spec, STree.kids]
          exact List.mem_map.mpr ⟨u, hu, rfl⟩
        have h4 : 4 ≤ u.keys.length := by
          have := hleast _ (hsub _ (mem_subtrees.mpr (.inl rfl)))
          rwa [spec_keys, List.length_map] at this
        refine ih u hu false H (fun x hx => hch x (hsub' x hx)) (fun x hx => hmost x (hsub' x hx)) (fun x hx => ?_)
          (fun _ => h4) (fun _ => by omega) (fun d hd => by have := hin u hu d hd; omega)
        refine hleast x (hsub x ?_)
        generalize u.spec c = y at hx
        obtain ⟨ky, ty⟩ := y
        exact List.mem_cons_of_mem _ hx

theorem count_flatL (q : Nat) : ∀ (ks : List Nat) (ts : List T),
    (flatL ks ts).count q = ks.count q + (ts.map fun t => t.flat.count q).sum
  | ks, [] => by simp [flatL_nil]
  | [], t :: ts => by
    have := count_flatL q [] ts
    simp only [flatL, List.count_append, List.map_cons, List.sum_cons, this]
    simp
  | k :: ks, t :: ts => by
    have := count_flatL q ks ts
    simp only [flatL, List.count_append, List.count_cons, List.map_cons, List.sum_cons, this]
    omega

theorem count_refsL (f : Child → Nat) (q : Nat) : ∀ (ts : List T),
    ((refsL ts).map f).count q = (ts.map fun t => (t.refs.map f).count q).sum
  | [] => by simp [refsL]
  | t :: ts => by
    have := count_refsL f q ts
    simp only [refsL, List.map_append, List.count_append, List.map_cons, List.sum_cons, this]

theorem sum_map_le {α} {f g : α → Nat} : ∀ {l : List α}, (∀ x ∈ l, f x ≤ g x) → (l.map f).sum ≤ (l.map g).sum
  | [], _ => Nat.le_refl _
  | x :: l, h => by
    have h1 := h x (by simp)
    have h2 := sum_map_le (l := l) fun y hy => h y (List.mem_cons_of_mem _ hy)
    simp only [List.map_cons, List.sum_cons]
    omega

/-- The number of the first key of a node. -/
def firstKey (N : Child → Option Node) (r : Child) : Nat := ((N r).bind fun n => n.keys.head?).getD 0

theorem count_first {N : Child → Option Node} {t : T} (h : Rep N t) : (∀ u, (u = t ∨ u ∈ t.kids) → u.keys ≠ []) →
    (∀ H b, GoodN b H t → ∀ q, (t.refs.map (firstKey N)).count q ≤ t.flat.count q) := by
  induction h with
  | @mk r ks ts hn hk ih =>
    intro hne H b hg q
    have hks : ks ≠ [] := hne (.mk r ks ts) (.inl rfl)
    obtain ⟨k, ks, rfl⟩ := List.exists_cons_of_ne_nil hks
    have hf : firstKey N r = k := by simp [firstKey, hn]
    have hsum : ((refsL ts).map (firstKey N)).count q ≤ (ts.map fun t => t.flat.count q).sum := by
      rw [count_refsL]
      refine sum_map_le fun t ht => ?_
      cases H with
      | zero => obtain ⟨rfl, -⟩ := hg; simp at ht
      | succ H =>
        have hgt := hg.2.2 t ht
        refine ih t ht (fun u hu => ?_) H false hgt q
        have h4 : ∀ (u : T) H, GoodN false H u → u.keys ≠ [] := by
          intro u H hu h0
          obtain ⟨ru, ku, tu⟩ := u
          have := (goodN_mk.mp hu).1.2.1 rfl
          simp only [T.keys] at h0
          subst h0
          simp at this
        rcases hu with rfl | hu
        · exact h4 _ _ hgt
        · obtain ⟨rt, kt, tt⟩ := t
          cases H with
          | zero => obtain ⟨rfl, -⟩ := hgt; simp [T.kids] at hu
          | succ H => exact h4 _ _ (hgt.2.2 u hu)
    simp only [T.refs, T.flat, List.map_cons, List.count_cons, count_flatL, hf]
    omega

theorem refs_nodup {N : Child → Option Node} {t : T} {H : Nat} (h : Rep N t) (hg : GoodN true H t) (hf : t.flat.Nodup) :
    t.refs.Nodup := by
  by_cases h0 : t.keys = []
  · obtain ⟨r, ks, ts⟩ := t
    simp only [T.keys] at h0
    subst h0
    cases H with
    | zero => obtain ⟨rfl, -⟩ := hg; simp [T.refs, refsL]
    | succ H =>
      have := hg.2.1.2.2 rfl (by omega)
      simp at this
  · have hq := count_first h (fun u hu => by
      rcases hu with rfl | hu
      · exact h0
      · obtain ⟨r, ks, ts⟩ := t
        intro hu0
        cases H with
        | zero => obtain ⟨rfl, -⟩ := hg; simp [T.kids] at hu
        | succ H =>
          have h1 := hg.2.2 u hu
          obtain ⟨ru, ku, tu⟩ := u
          have := (goodN_mk.mp h1).1.2.1 rfl
          simp only [T.keys] at hu0
          subst hu0
          simp at this) H true hg
    have : (t.refs.map (firstKey N)).Nodup := by
      rw [List.nodup_iff_count]
      intro a
      exact Nat.le_trans (hq a) (List.nodup_iff_count.mp hf a)
    exact this.of_map _

/-- A core that stores a B-tree satisfies the invariant. -/
theorem treeAt_of_stores {c : List Bytes} (hl : Loads c) (h0 : wireBlock c 0 = none) {st : STree} (h : StoresRoot c st)
    (hb : IsBTree st) : ∃ H t, TreeAt c H t ∧ t.spec c = st := by
  obtain ⟨t, h1, h2, rfl, h4⟩ := h.rep hl
  obtain ⟨h, hlev⟩ := hb.level
  have hne := spec_depths_ne c t
  obtain ⟨d, hd⟩ := List.exists_mem_of_ne_nil _ hne
  have hpos : ∀ d ∈ (t.spec c).leafDepths, 1 ≤ d := by
    obtain ⟨r, ks, ts⟩ := t
    intro d hd
    cases ts with
    | nil => simp [T.spec, STree.leafDepths] at hd; omega
    | cons x xs =>
      simp only [T.spec, List.map_cons, STree.leafDepths] at hd
      obtain ⟨d', -, rfl⟩ := List.mem_map.mp hd
      omega
  have hd1 := hpos d hd
  have hdh := hlev d hd
  have hg : GoodN true (h - 1) t := by
    refine good_of_spec t true (h - 1) hb.children hb.most hb.least (fun h => by cases h) (fun hk => ?_)
      (fun d hd => by have := hlev d hd; omega)
    have := hb.top (by rw [spec_kids]; simpa using hk)
    rwa [spec_keys, List.length_map] at this
  have hsrt : Srt c t.flat := by
    have := hb.sorted
    rw [spec_inorder, List.pairwise_map] at this
    exact this
  have hnd : t.flat.Nodup := by
    refine List.Pairwise.imp (fun {a b} h => ?_) hsrt
    rintro rfl
    exact absurd h (List.lt_irrefl _)
  have hp : ∀ q ∈ t.flat, 0 < q := by
    intro q hq
    refine Nat.pos_of_ne_zero fun h0' => ?_
    subst h0'
    obtain ⟨b, hb⟩ := h4 0 hq
    obtain ⟨m, ls, h5, -⟩ := wireBlock_blockAt hb
    rw [h0] at h5
    cases h5
  refine ⟨h - 1, t, ⟨h1, hg, h2, refs_nodup h1 hg hnd, hsrt, h4, ?_, hp⟩, rfl⟩
  refine Nat.lt_of_not_le fun hle => ?_
  have h5 := h1.node
  rw [h2] at h5
  unfold nodeAt at h5
  cases hb0 : blockAt c (c.length - 1) with
  | none => simp [hb0] at h5
  | some b =>
    obtain ⟨m, ls, h6, -⟩ := wireBlock_blockAt hb0
    rw [show c.length - 1 = 0 by omega, h0] at h6
    cases h6

end Hyperbee
