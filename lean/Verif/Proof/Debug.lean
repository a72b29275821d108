import Verif.Proof.Utf8
import Verif.Proof.STree
import Verif.Proof.Stream
/-!
# The height of a node, and printing a tree
-/

namespace Hyperbee

/-- The first child of a node of a stored tree. -/
theorem firstChild_run {s : St} (hw : SWF s) {H : Nat} {t : T} {a : Nat} (hrep : Rep (nodeAt s.core) t)
    (hcoh : Coh s (· ∈ t.refs)) (hsh : Shape (H + 1) t) (ha : addrOf s t.ref = some a) :
    ∃ u a' s', getChild a 0 s = (.ok a', s') ∧ Ext s s' ∧ Rep (nodeAt s'.core) u ∧ Coh s' (· ∈ u.refs) ∧ Shape H u ∧
      addrOf s' u.ref = some a' := by
  obtain ⟨r, ks, ts⟩ := t
  simp only [Shape] at hsh
  obtain ⟨hlen, hkids⟩ := hsh
  cases ts with
  | nil => simp at hlen
  | cons u ts =>
    have hn : s.heap[a]? = some ⟨ks, (u :: ts).map T.ref⟩ := by
      rw [hcoh r (by simp [T.refs]) a ha]; exact hrep.node
    have hrepc := hrep.kids u (by simp [T.kids])
    obtain ⟨m, hm⟩ := hrepc.refs_some _ (T.ref_mem_refs u)
    obtain ⟨a', s', h1, e, h2⟩ := getChild_run hw hn (i := 0) (r := u.ref) (by simp) hm
    refine ⟨u, a', s', h1, e, by rw [e.core]; exact hrepc, ?_, hkids u (by simp), h2⟩
    exact (e.coh hw hcoh).mono fun r' hr' => by
      simp only [T.refs, List.mem_cons]
      exact .inr (mem_refsL.mpr ⟨u, by simp, hr'⟩)

theorem children_shape {H : Nat} {t : T} (h : Shape H t) : (t.node.children.length = 0 ↔ H = 0) := by
  obtain ⟨r, ks, ts⟩ := t
  cases H with
  | zero => simp only [Shape] at h; subst h; simp [T.node, T.kids]
  | succ H =>
    simp only [Shape] at h
    simp only [T.node, T.kids, List.length_map]
    constructor
    · intro h0; rw [h0] at h; omega
    · intro h0; omega

theorem heightLoop_run : ∀ (H fuel out : Nat) (t : T) (s : St) (a : Nat), H < fuel → SWF s → Rep (nodeAt s.core) t →
    Coh s (· ∈ t.refs) → Shape H t → addrOf s t.ref = some a →
    ∃ s', heightLoop fuel out a s = (.ok (out + 1 + H), s') ∧ Ext s s' := by
  intro H
  induction H with
  | zero =>
    intro fuel out t s a hf hw hrep hcoh hsh ha
    obtain ⟨fuel, rfl⟩ : ∃ f, fuel = f + 1 := ⟨fuel - 1, by omega⟩
    have hn : s.heap[a]? = some t.node := by
      rw [hcoh t.ref (T.ref_mem_refs t) a ha]; exact hrep.node
    refine ⟨s, ?_, Ext.refl hw⟩
    unfold heightLoop
    rw [bind_ok (readNode_some hn), if_pos ((children_shape hsh).mpr rfl)]
    rfl
  | succ H ih =>
    intro fuel out t s a hf hw hrep hcoh hsh ha
    obtain ⟨fuel, rfl⟩ : ∃ f, fuel = f + 1 := ⟨fuel - 1, by omega⟩
    have hn : s.heap[a]? = some t.node := by
      rw [hcoh t.ref (T.ref_mem_refs t) a ha]; exact hrep.node
    obtain ⟨u, a', s1, h1, e1, h2, h3, h4, h5⟩ := firstChild_run hw hrep hcoh hsh ha
    obtain ⟨s2, h6, e2⟩ := ih fuel (out + 1) u s1 a' (by omega) e1.wf h2 h3 h4 h5
    refine ⟨s2, ?_, e1.trans e2⟩
    unfold heightLoop
    rw [bind_ok (readNode_some hn), if_neg (fun h => by have := (children_shape hsh).mp h; omega)]
    rw [bind_ok h1, h6, show out + 1 + 1 + H = out + 1 + (H + 1) by omega]

/-- `Node::height` on a node of a stored tree. -/
theorem nodeHeight_run {s : St} (hw : SWF s) {H : Nat} {t : T} {a : Nat} (hrep : Rep (nodeAt s.core) t)
    (hcoh : Coh s (· ∈ t.refs)) (hsh : Shape H t) (ha : addrOf s t.ref = some a) (hlt : H < stepBound s.core) :
    ∃ s', nodeHeight a s = (.ok (H + 1), s') ∧ Ext s s' := by
  have hn : s.heap[a]? = some t.node := by
    rw [hcoh t.ref (T.ref_mem_refs t) a ha]; exact hrep.node
  unfold nodeHeight
  rw [bind_ok (isLeaf_run hn)]
  cases H with
  | zero =>
    have h0 := (children_shape hsh).mpr rfl
    rw [h0]
    exact ⟨s, rfl, Ext.refl hw⟩
  | succ H =>
    have h0 : t.node.children.length ≠ 0 := fun h0 => by
      have := (children_shape hsh).mp h0; omega
    have h0' : (t.node.children.length == 0) = false := by simpa using h0
    rw [h0']
    obtain ⟨u, a', s2, h2, e2, g1, g2, g3, g4⟩ := firstChild_run hw hrep hcoh hsh ha
    obtain ⟨s3, h3, e3⟩ := heightLoop_run H (stepBound s2.core) 1 u s2 a' (by rw [e2.core]; omega) e2.wf g1 g2 g3 g4
    refine ⟨s3, ?_, e2.trans e3⟩
    simp only [Bool.false_eq_true, if_false]
    rw [bind_ok h2, bind_ok (show descentFuel s2 = (.ok (stepBound s2.core), s2) from rfl), h3]
    rw [show 1 + 1 + H = H + 1 + 1 by omega]

/-! ## Depths -/

mutual
/-- The keys in order, each with its depth, that of the top being `d`. -/
def T.outline (d : Nat) : T → List (Nat × Nat)
  | .mk _ ks ts => outlineL d ks ts
def outlineL (d : Nat) : List Nat → List T → List (Nat × Nat)
  | ks, [] => ks.map fun k => (d, k)
  | [], t :: ts => t.outline (d + 1) ++ outlineL d [] ts
  | k :: ks, t :: ts => t.outline (d + 1) ++ (d, k) :: outlineL d ks ts
end

theorem outline_flat (t : T) : ∀ d, (t.outline d).map (·.2) = t.flat := by
  induction t using T.ind with
  | h r ks ts ih =>
    intro d
    rw [T.outline, T.flat]
    induction ts generalizing ks with
    | nil => cases ks <;> simp [outlineL, flatL, Function.comp_def]
    | cons t ts ih2 =>
      have h1 := ih t (by simp)
      cases ks with
      | nil => rw [outlineL, flatL, List.map_append, h1, ih2 _ (fun u hu => ih u (by simp [hu]))]
      | cons k ks =>
        rw [outlineL, flatL, List.map_append, List.map_cons, h1, ih2 _ (fun u hu => ih u (by simp [hu]))]

theorem mem_outlineL_kid {d : Nat} {t : T} {x : Nat × Nat} (hx : x ∈ t.outline (d + 1)) :
    ∀ {ts : List T} (ks : List Nat), t ∈ ts → x ∈ outlineL d ks ts := by
  intro ts
  induction ts with
  | nil => intro _ h; simp at h
  | cons u ts ih =>
    intro ks h
    rcases List.mem_cons.mp h with rfl | h
    · cases ks <;> simp [outlineL, hx]
    · cases ks <;> simp [outlineL, ih _ h]

theorem mem_outlineL_key {d q : Nat} : ∀ {ks : List Nat} (ts : List T), q ∈ ks → (d, q) ∈ outlineL d ks ts := by
  intro ks ts
  induction ts generalizing ks with
  | nil => intro h; simpa [outlineL] using h
  | cons u ts ih =>
    intro h
    cases ks with
    | nil => simp at h
    | cons k ks =>
      rcases List.mem_cons.mp h with rfl | h
      · simp [outlineL]
      · simp [outlineL, ih h]

theorem Under.outline {d : Nat} {m n : T} (h : Under d m n) {q : Nat} (hq : q ∈ m.keys) :
    ∀ d0, (d0 + d, q) ∈ n.outline d0 := by
  induction h with
  | @top n =>
    intro d0
    obtain ⟨r, ks, ts⟩ := n
    exact mem_outlineL_key ts hq
  | @kid d m t n ht _ ih =>
    intro d0
    obtain ⟨r, ks, ts⟩ := n
    refine mem_outlineL_kid ?_ ks ht
    have := ih hq (d0 + 1)
    rwa [show d0 + 1 + d = d0 + (d + 1) by omega] at this

theorem Under.shape {d : Nat} {m n : T} (h : Under d m n) : ∀ {H : Nat}, Shape H n → ∃ H', H = H' + d ∧ Shape H' m := by
  induction h with
  | top => intro H hs; exact ⟨H, rfl, hs⟩
  | @kid d m t n ht _ ih =>
    intro H hs
    obtain ⟨r, ks, ts⟩ := n
    cases H with
    | zero => simp only [Shape] at hs; subst hs; simp [T.kids] at ht
    | succ H =>
      simp only [Shape] at hs
      obtain ⟨H', h1, h2⟩ := ih (hs.2 t ht)
      exact ⟨H', by omega, h2⟩

theorem pair_unique {l : List (Nat × Nat)} (h : (l.map (·.2)).Nodup) {a b q : Nat} (ha : (a, q) ∈ l) (hb : (b, q) ∈ l) :
    a = b := by
  induction l with
  | nil => simp at ha
  | cons x l ih =>
    rw [List.map_cons, List.nodup_cons] at h
    have hn : ∀ y, (y, q) ∈ l → x.2 ≠ q := fun y hy hx => h.1 (hx ▸ List.mem_map.mpr ⟨_, hy, rfl⟩)
    rcases List.mem_cons.mp ha with rfl | ha
    · rcases List.mem_cons.mp hb with hb | hb
      · exact (Prod.mk.inj hb).1.symm
      · exact absurd rfl (hn _ hb)
    · rcases List.mem_cons.mp hb with hb | hb
      · exact absurd (congrArg (·.2) hb).symm (hn _ ha)
      · exact ih h.2 ha hb

theorem spec_outline (c : List Bytes) (t : T) : ∀ d, (t.spec c).outline d = (t.outline d).map fun p => (p.1, keyOf c p.2) := by
  induction t using T.ind with
  | h r ks ts ih =>
    intro d
    rw [T.spec, STree.outline, T.outline]
    induction ts generalizing ks with
    | nil => cases ks <;> simp [outlineL, STree.outline.weave]
    | cons t ts ih2 =>
      have h1 := ih t (by simp)
      have h2 := ih2 (ih := fun u hu => ih u (by simp [hu]))
      cases ks with
      | nil =>
        have := h2 []
        simp only [List.map_nil] at this
        simp only [List.map_nil, List.map_cons, STree.outline.weave, outlineL, List.map_append, h1, this]
      | cons k ks =>
        simp only [List.map_cons, STree.outline.weave, outlineL, List.map_append, h1, h2 ks]

/-! ## What an outline tells -/

theorem STree.mem_weave {d : Nat} {p : Nat × Bytes} : ∀ {ts : List STree} {ks : List (Nat × Bytes)},
    p ∈ STree.outline.weave d ks ts → (p.1 = d ∧ p.2 ∈ ks.map (·.2)) ∨ ∃ t ∈ ts, p ∈ t.outline (d + 1) := by
  intro ts
  induction ts with
  | nil =>
    intro ks h
    have h : p ∈ ks.map fun k => (d, k.2) := by cases ks <;> simpa [STree.outline.weave] using h
    obtain ⟨k, hk, rfl⟩ := List.mem_map.mp h
    exact .inl ⟨rfl, List.mem_map.mpr ⟨k, hk, rfl⟩⟩
  | cons t ts ih =>
    intro ks h
    cases ks with
    | nil =>
      simp only [STree.outline.weave, List.mem_append] at h
      rcases h with h | h
      · exact .inr ⟨t, by simp, h⟩
      · rcases ih h with ⟨_, h⟩ | ⟨u, hu, h⟩
        · simp at h
        · exact .inr ⟨u, by simp [hu], h⟩
    | cons k ks =>
      simp only [STree.outline.weave, List.mem_append, List.mem_cons] at h
      rcases h with h | h | h
      · exact .inr ⟨t, by simp, h⟩
      · subst h; exact .inl ⟨rfl, by simp⟩
      · rcases ih h with ⟨h1, h⟩ | ⟨u, hu, h⟩
        · exact .inl ⟨h1, List.mem_cons_of_mem _ h⟩
        · exact .inr ⟨u, by simp [hu], h⟩

theorem STree.outline_ge (t : STree) : ∀ d, ∀ p ∈ t.outline d, d ≤ p.1 := by
  induction t using STree.ind with
  | h ks ts ih =>
    intro d p hp
    rw [STree.outline] at hp
    rcases STree.mem_weave hp with ⟨h, _⟩ | ⟨t, ht, h⟩
    · omega
    · have := ih t ht (d + 1) p h; omega

theorem STree.outline_top {ks : List (Nat × Bytes)} (ts : List STree) (h : ks ≠ []) (d : Nat) :
    ∃ p ∈ (STree.node ks ts).outline d, p.1 = d := by
  cases ks with
  | nil => exact absurd rfl h
  | cons k ks => cases ts <;> exact ⟨(d, k.2), by simp [STree.outline, STree.outline.weave], rfl⟩

theorem cut_unique {d : Nat} {k k' : Bytes} {w w' : List (Nat × Bytes)} : ∀ {a a' : List (Nat × Bytes)},
    (∀ p ∈ a, d < p.1) → (∀ p ∈ a', d < p.1) → a ++ (d, k) :: w = a' ++ (d, k') :: w' → a = a' ∧ k = k' ∧ w = w' := by
  intro a
  induction a with
  | nil =>
    intro a' _ h2 h
    cases a' with
    | nil => simpa using h
    | cons x a' =>
      simp only [List.nil_append, List.cons_append, List.cons.injEq] at h
      have := h2 x (by simp)
      rw [← h.1] at this
      simp at this
  | cons x a ih =>
    intro a' h1 h2 h
    cases a' with
    | nil =>
      simp only [List.nil_append, List.cons_append, List.cons.injEq] at h
      have := h1 x (by simp)
      rw [h.1] at this
      simp at this
    | cons x' a' =>
      simp only [List.cons_append, List.cons.injEq] at h
      obtain ⟨rfl, r⟩ := ih (fun p hp => h1 p (by simp [hp])) (fun p hp => h2 p (by simp [hp])) h.2
      exact ⟨by rw [h.1], r⟩

theorem weave_inj {d : Nat} : ∀ {ts us : List STree} {ks ls : List (Nat × Bytes)}, ts.length = ks.length + 1 →
    us.length = ls.length + 1 → STree.outline.weave d ks ts = STree.outline.weave d ls us →
    ks.map (·.2) = ls.map (·.2) ∧ ts.map (·.outline (d + 1)) = us.map (·.outline (d + 1)) := by
  intro ts
  induction ts with
  | nil => intro us ks ls h; simp at h
  | cons t ts ih =>
    intro us ks ls h1 h2 h
    cases us with
    | nil => simp at h2
    | cons u us =>
      have gt : ∀ v : STree, ∀ p ∈ v.outline (d + 1), d < p.1 := fun v p hp => v.outline_ge (d + 1) p hp
      have no : ∀ {v : STree} {k : Bytes} {x w}, v.outline (d + 1) = x ++ (d, k) :: w → False := by
        intro v k x w hv
        have := gt v (d, k) (by rw [hv]; simp)
        simp at this
      cases ks with
      | nil =>
        obtain rfl : ts = [] := by simpa using h1
        cases ls with
        | nil =>
          obtain rfl : us = [] := by simpa using h2
          simpa [STree.outline.weave] using h
        | cons l ls =>
          simp only [STree.outline.weave, List.map_nil, List.append_nil] at h
          exact (no h).elim
      | cons k ks =>
        cases ls with
        | nil =>
          obtain rfl : us = [] := by simpa using h2
          simp only [STree.outline.weave, List.map_nil, List.append_nil] at h
          exact (no h.symm).elim
        | cons l ls =>
          simp only [STree.outline.weave] at h
          obtain ⟨e1, e2, e3⟩ := cut_unique (gt t) (gt u) h
          obtain ⟨r1, r2⟩ := ih (by simpa using h1) (by simpa using h2) e3
          simp only [List.map_cons, e1, e2, r1, r2, and_self]

/-- A tree whose inner nodes have one more child than keys, and whose nodes below the top have keys,
is determined, up to block numbers, by its outline. -/
theorem outline_bare (t : STree) : ∀ (u : STree) (d : Nat),
    (∀ v ∈ t.subtrees, v.kids = [] ∨ v.kids.length = v.keys.length + 1) → (∀ v ∈ t.proper, v.keys ≠ []) →
    (∀ v ∈ u.subtrees, v.kids = [] ∨ v.kids.length = v.keys.length + 1) → (∀ v ∈ u.proper, v.keys ≠ []) →
    t.outline d = u.outline d → t.bare = u.bare := by
  induction t using STree.ind with
  | h ks ts ih =>
    rintro ⟨ls, us⟩ d ht1 ht2 hu1 hu2 h
    have self : ∀ v : STree, v ∈ v.subtrees := by rintro ⟨a, b⟩; simp [STree.subtrees]
    have mem : ∀ {v w : STree} {vs : List STree}, v ∈ vs → w ∈ v.subtrees → w ∈ STree.subtrees.below vs :=
      fun hv hw => mem_below.mpr ⟨_, hv, hw⟩
    have prop : ∀ {v w : STree}, w ∈ v.proper → w ∈ v.subtrees := by
      rintro ⟨a, b⟩ w hw
      exact List.mem_cons_of_mem _ hw
    have leaf : ∀ {a b : List (Nat × Bytes)} {v : STree} {vs : List STree},
        (∀ w ∈ STree.subtrees.below (v :: vs), w.keys ≠ []) →
        (STree.node a []).outline d = (STree.node b (v :: vs)).outline d → False := by
      intro a b v vs hk he
      obtain ⟨vk, vt⟩ := v
      obtain ⟨p, hp, hd⟩ := STree.outline_top vt (hk (.node vk vt) (mem (by simp) (self _))) (d + 1)
      have : p ∈ (STree.node b (.node vk vt :: vs)).outline d := by
        have hp : p ∈ (STree.node vk vt).outline (d + 1) := hp
        show p ∈ STree.outline.weave d b (.node vk vt :: vs)
        cases b <;> rw [STree.outline.weave] <;> exact List.mem_append.mpr (.inl hp)
      rw [← he, STree.outline] at this
      rcases STree.mem_weave this with ⟨hx, _⟩ | ⟨w, hw, _⟩
      · omega
      · simp at hw
    have kt := ht1 _ (self _)
    have ku := hu1 _ (self _)
    simp only [STree.kids, STree.keys] at kt ku
    have keysEq : ∀ {a b : List (Nat × Bytes)}, a.map (·.2) = b.map (·.2) →
        (a.map fun k => ((0 : Nat), k.2)) = b.map fun k => (0, k.2) := by
      intro a b hab
      have := congrArg (List.map fun x : Bytes => ((0 : Nat), x)) hab
      simpa [List.map_map, Function.comp_def] using this
    cases ts with
    | nil =>
      cases us with
      | nil =>
        simp only [STree.outline, STree.outline.weave] at h
        simp only [STree.bare, List.map_nil, STree.node.injEq, and_true]
        have h : (ks.map fun k => (d, k.2)) = ls.map fun k => (d, k.2) := by
          cases ks <;> cases ls <;> simpa [STree.outline.weave] using h
        refine keysEq ?_
        have := congrArg (List.map (·.2)) h
        simpa [List.map_map, Function.comp_def] using this
      | cons u us => exact (leaf hu2 h).elim
    | cons t ts =>
      cases us with
      | nil => exact (leaf ht2 h.symm).elim
      | cons u us =>
        rcases kt with kt | kt
        · simp at kt
        rcases ku with ku | ku
        · simp at ku
        simp only [STree.outline] at h
        obtain ⟨e1, e2⟩ := weave_inj kt ku h
        simp only [STree.bare, STree.node.injEq]
        refine ⟨keysEq e1, ?_⟩
        have sub : ∀ {vs : List STree} {ws : List STree}, (∀ v ∈ vs, v ∈ t :: ts) → (∀ w ∈ ws, w ∈ u :: us) →
            vs.map (·.outline (d + 1)) = ws.map (·.outline (d + 1)) → vs.map STree.bare = ws.map STree.bare := by
          intro vs
          induction vs with
          | nil => intro ws _ _ he; cases ws with
            | nil => rfl
            | cons w ws => simp at he
          | cons v vs ihv =>
            intro ws hv hw he
            cases ws with
            | nil => simp at he
            | cons w ws =>
              simp only [List.map_cons, List.cons.injEq] at he ⊢
              refine ⟨ih v (hv v (by simp)) w (d + 1) ?_ ?_ ?_ ?_ he.1,
                ihv (fun x hx => hv x (by simp [hx])) (fun x hx => hw x (by simp [hx])) he.2⟩
              · exact fun x hx => ht1 x (List.mem_cons_of_mem _ (mem (hv v (by simp)) hx))
              · exact fun x hx => ht2 x (mem (hv v (by simp)) (prop hx))
              · exact fun x hx => hu1 x (List.mem_cons_of_mem _ (mem (hw w (by simp)) hx))
              · exact fun x hx => hu2 x (mem (hw w (by simp)) (prop hx))
        exact sub (fun _ h => h) (fun _ h => h) e2

/-! ## Printing -/

/-- One printed line. -/
def lineOf (c : List Bytes) (p : Nat × Nat) : Bytes := List.replicate p.1 9 ++ keyOf c p.2 ++ [10]

theorem default_sound : TraverseConfig.default.Sound := build_sound (b := {}) rfl

theorem printLoop_run {c : List Bytes} {H : Nat} {n : T} (hsh : Shape H n) (hH : H < stepBound c)
    (hnd : n.flat.Nodup) : ∀ (sched : List Bool) (s : St) (fs : List Frame) (ps : List (Nat × Nat)) (acc : Bytes)
    (fuel : Nat), s.core = c → Strm s .default fs n (ps.map (·.2)) fuel → (∀ p ∈ ps, p ∈ n.outline 0) → SWF s →
    ∃ r s', printLoop (H + 1) sched fs acc s = (r, s') ∧ Ext s s' ∧
      ((r = .ok none ∧ sched.count true < fuel) ∨
       ((∀ p ∈ ps, utf8Valid (keyOf c p.2) = true) ∧ r = .ok (some (acc ++ ps.flatMap (lineOf c)))) ∨
       ((∃ p ∈ ps, utf8Valid (keyOf c p.2) = false) ∧ r = .error .keyFromUtf8)) := by
  intro sched
  induction sched with
  | nil =>
    intro s fs ps acc fuel _ h _ hw
    exact ⟨_, s, rfl, Ext.refl hw, .inl ⟨rfl, by have := h.pos; simpa using this⟩⟩
  | cons r rs ih =>
    intro s fs ps acc fuel hcore h hps hw
    obtain ⟨p, fs', s1, h1, e1, hp⟩ := poll_run default_sound h hw r
    unfold printLoop
    rw [bind_ok h1]
    have hcore1 : s1.core = c := by rw [e1.core, hcore]
    cases p with
    | pending woken waiting =>
      obtain ⟨_, hp⟩ := hp
      have key : ∃ fuel', Strm s1 .default fs' n (ps.map (·.2)) fuel' ∧ (if r then 1 else 0) + fuel' ≤ fuel := by
        cases waiting with
        | true =>
          rw [if_pos rfl] at hp
          obtain ⟨rfl, rfl, rfl⟩ := hp
          exact ⟨fuel, h, by simp⟩
        | false =>
          rw [if_neg (by simp)] at hp
          obtain ⟨f', hlt, hst⟩ := hp
          exact ⟨f', hst, by split <;> omega⟩
      obtain ⟨f', hst, hle⟩ := key
      obtain ⟨x, s2, h2, e2, hx⟩ := ih s1 fs' ps acc f' hcore1 hst hps e1.wf
      refine ⟨x, s2, h2, e1.trans e2, ?_⟩
      rcases hx with ⟨hx, hc⟩ | hx
      · exact .inl ⟨hx, by cases r <;> simp at hle ⊢ <;> omega⟩
      · exact .inr hx
    | ready item woken =>
      cases item with
      | none =>
        obtain ⟨_, ho⟩ := hp
        obtain rfl : ps = [] := by simpa using ho
        exact ⟨_, s1, rfl, e1, .inr (.inl ⟨by simp, by simp⟩)⟩
      | some it =>
        obtain ⟨x, a⟩ := it
        obtain ⟨q, out', f', rfl, ho, hlt, hst, d, m, h', hu, hq, hma, hvm⟩ := hp
        cases ps with
        | nil => simp at ho
        | cons p ps =>
          rw [List.map_cons] at ho
          injection ho with ho1 ho2
          obtain ⟨pd, pq⟩ := p
          simp only at ho1
          subst ho1 ho2
          have hd := hu.outline hq 0
          have hpd : pd = d := by
            have := pair_unique (by rw [outline_flat]; exact hnd) (hps (pd, pq) (by simp)) hd
            omega
          subst hpd
          obtain ⟨H', hH', hs'⟩ := hu.shape hsh
          obtain ⟨s2, h2, e2⟩ := nodeHeight_run e1.wf hvm.rep hvm.coh hs' hma (by rw [hcore1]; omega)
          simp only []
          rw [bind_ok h2, if_neg (by omega), hcore]
          have hsub : H + 1 - (H' + 1) = pd := by omega
          rw [hsub]
          cases hv : utf8Valid (keyOf c pq) with
          | false =>
            refine ⟨_, s2, by rw [if_neg (by simp)]; rfl, e1.trans e2, .inr (.inr ⟨⟨(pd, pq), by simp, hv⟩, rfl⟩)⟩
          | true =>
            rw [if_pos rfl]
            obtain ⟨x, s3, h3, e3, hx⟩ := ih s2 fs' ps (acc ++ List.replicate pd 9 ++ keyOf c pq ++ [10]) f'
              (by rw [e2.core, hcore1]) (hst.ext e1.wf e2) (fun p hp => hps p (List.mem_cons_of_mem _ hp)) e2.wf
            refine ⟨x, s3, h3, (e1.trans e2).trans e3, ?_⟩
            rcases hx with ⟨hx, hc⟩ | ⟨hx, hr⟩ | ⟨⟨p, hp, hf⟩, hr⟩
            · exact .inl ⟨hx, by cases r <;> simp <;> omega⟩
            · refine .inr (.inl ⟨fun p hp => ?_, ?_⟩)
              · rcases List.mem_cons.mp hp with rfl | hp
                · exact hv
                · exact hx p hp
              · rw [hr, List.flatMap_cons, lineOf]; simp
            · exact .inr (.inr ⟨⟨p, List.mem_cons_of_mem _ hp, hf⟩, hr⟩)

theorem listing_default (c : List Bytes) (t : T) : listing c .default t = t.flat := by
  unfold listing
  rw [List.filter_eq_self.mpr (fun q _ => by
    rw [show TraverseConfig.default.inBounds (keyOf c q) = true from rfl])]
  rfl

theorem TreeAt.flat_nodup {c : List Bytes} {H : Nat} {t : T} (h : TreeAt c H t) : t.flat.Nodup := by
  refine List.Pairwise.imp ?_ h.srt
  intro a b hab he
  subst he
  exact absurd hab (List.lt_irrefl _)

/-- `Tree::print` on a stored tree. -/
theorem print_run {s : St} {H : Nat} {t : T} (ht : TreeAt s.core H t) (hw : SWF s) (hc : Coh s (· ∈ t.refs))
    (sched : List Bool) : ∃ r s', print sched s = (r, s') ∧ Ext s s' ∧
      ((r = .ok none ∧ sched.count true < t.cost) ∨
       ((∀ q ∈ t.flat, utf8Valid (keyOf s.core q) = true) ∧
         r = .ok (some ((t.outline 0).flatMap (lineOf s.core)))) ∨
       ((∃ q ∈ t.flat, utf8Valid (keyOf s.core q) = false) ∧ r = .error .keyFromUtf8)) := by
  obtain ⟨a, s1, h1, e1, ha⟩ := getRoot_run ht hw false
  have hlt : H < stepBound s1.core := by have := ht.height_lt; rw [e1.core]; unfold stepBound; omega
  obtain ⟨s2, h2, e2⟩ := nodeHeight_run e1.wf (by rw [e1.core]; exact ht.rep) (e1.coh hw hc) ht.good.shape ha hlt
  have hst := Strm.setup (s := s2) (conf := .default) (f := Frame.new a .default) (k := 3)
    ((ht.vw hc).ext hw (e1.trans e2)) (e2.addr ha) rfl rfl rfl rfl (.inl ⟨rfl, rfl, rfl, rfl⟩)
  have hl := listing_default s2.core t
  unfold listing at hl
  rw [hl, ← outline_flat t 0] at hst
  have hcost : t.cost = 3 + (2 + 2 * t.keys.length + costL t.kids) := by cases t; simp only [T.cost, T.keys, T.kids]; omega
  rw [← hcost] at hst
  have hcore : s2.core = s.core := by rw [e2.core, e1.core]
  obtain ⟨r, s3, h3, e3, hr⟩ := printLoop_run ht.good.shape (by rw [← e1.core]; exact hlt) ht.flat_nodup sched s2 _ _ []
    _ hcore hst (fun p hp => hp) e2.wf
  refine ⟨r, s3, ?_, (e1.trans e2).trans e3, ?_⟩
  · unfold print
    rw [bind_ok h1]
    show printNode sched a s1 = _
    unfold printNode
    rw [bind_ok h2]
    exact h3
  · have hm : ∀ q, q ∈ t.flat ↔ ∃ p ∈ t.outline 0, p.2 = q := by
      intro q; rw [← outline_flat t 0, List.mem_map]
    rcases hr with hr | ⟨hv, hr⟩ | ⟨⟨p, hp, hf⟩, hr⟩
    · exact .inl hr
    · refine .inr (.inl ⟨fun q hq => ?_, by rw [hr]; rfl⟩)
      obtain ⟨p, hp, rfl⟩ := (hm q).mp hq
      exact hv p hp
    · exact .inr (.inr ⟨⟨p.2, (hm _).mpr ⟨p, hp, rfl⟩, hf⟩, hr⟩)

end Hyperbee
