import Verif.Proof.Debug
import Verif.Props.Structure
/-!
# The height of the tree, and printing it

Properties C50 and C57.
-/

namespace Hyperbee

/-! ## C50 -/

theorem Holds.height_levels {s : St} {d : Db} (h : Holds s d) : ∃ n s', height s = (.ok n, s') ∧ s'.core = s.core ∧
    (s.core.length ≤ 1 → n = 0) ∧
    (2 ≤ s.core.length → ∃ t, StoresRoot s.core t ∧ t.leafDepths ≠ [] ∧ ∀ d ∈ t.leafDepths, d = n) := by
  rcases h.store with hb | ⟨H, t, ht, hc, _⟩
  · have hl := hb.1
    refine ⟨0, s, ?_, rfl, fun _ => rfl, fun h2 => by omega⟩
    have hroot : getRoot false s = (.ok none, s) := by
      rcases Nat.lt_or_ge s.core.length 1 with hl | hl
      · exact getRoot_zero_false (by omega)
      · exact getRoot_one (by omega) false
    unfold height
    rw [bind_ok hroot]
    rfl
  · obtain ⟨a, s1, h1, e1, ha⟩ := getRoot_run ht h.wf false
    have hrep : Rep (nodeAt s1.core) t := by rw [e1.core]; exact ht.rep
    have hcoh := e1.coh h.wf hc
    have hlt := ht.height_lt
    have hres := nodeHeight_run e1.wf hrep hcoh ht.good.shape ha (by rw [e1.core]; unfold stepBound; omega)
    obtain ⟨s', h2, e2⟩ := hres
    refine ⟨H + 1, s', ?_, (e1.trans e2).core, fun hl => by have := ht.two; omega,
      fun _ => ⟨t.spec s.core, ht.stores, spec_depths_ne _ _, spec_depths ht.good.shape⟩⟩
    unfold height
    rw [bind_ok h1]
    exact h2

/-- C50.  `height()` is 0 as long as there is no root, and otherwise the depth of every leaf of the
stored tree.  It changes nothing but the cache. -/
theorem height_levels {s : St} (hs : Reachable s) : ∃ n s', height s = (.ok n, s') ∧ s'.core = s.core ∧
    (s.core.length ≤ 1 → n = 0) ∧
    (2 ≤ s.core.length → ∃ t, StoresRoot s.core t ∧ t.leafDepths ≠ [] ∧ ∀ d ∈ t.leafDepths, d = n) :=
  hs.holds.elim fun _ h => h.height_levels

/-- Sixty keys make three levels, nine make two; an emptied database still has a root. -/
example : (height (runSt ascending St.init)).1 = .ok 3 ∧ (height (runSt (ascending.take 9) St.init)).1 = .ok 2 ∧
    (height (runSt demoEmptied St.init)).1 = .ok 1 ∧ (height St.init).1 = .ok 0 := by decide +kernel

/-! ## C57 -/

/-- The bytes are characters, in UTF-8. -/
def IsText (k : Bytes) : Prop := ∃ cs : List Char, k = cs.flatMap String.utf8EncodeChar

/-- A line: as many tabs as the node is deep, the key, and a newline. -/
def line (p : Nat × Bytes) : Bytes := List.replicate p.1 9 ++ p.2 ++ [10]

open Classical in
theorem Holds.print_outline {s : St} {d : Db} (h : Holds s d) (h2 : 2 ≤ s.core.length) : ∃ t, StoresRoot s.core t ∧
    ∀ sched, ∃ r s', print sched s = (r, s') ∧ s'.core = s.core ∧
      (5 + 4 * t.inorder.length ≤ sched.count true → r ≠ .ok none) ∧
      (r = .ok none ∨ r = if ∀ k ∈ t.inorder, IsText k.2 then .ok (some ((t.outline 0).flatMap line))
        else .error .keyFromUtf8) := by
  rcases h.store with hb | ⟨H, t, ht, hc, _⟩
  · have := hb.1; omega
  · refine ⟨t.spec s.core, ht.stores, fun sched => ?_⟩
    obtain ⟨r, s', h1, e1, hr⟩ := print_run ht h.wf hc sched
    have hall : (∀ k ∈ (t.spec s.core).inorder, IsText k.2) ↔ ∀ q ∈ t.flat, utf8Valid (keyOf s.core q) = true := by
      rw [spec_inorder]
      simp only [List.mem_map, forall_exists_index, and_imp, forall_apply_eq_imp_iff₂, IsText, ← utf8Valid_iff]
    refine ⟨r, s', h1, e1.core, fun hn => ?_, ?_⟩
    · rw [spec_inorder, List.length_map] at hn
      have := ht.good.cost_root
      rcases hr with ⟨_, hlt⟩ | ⟨_, hr⟩ | ⟨_, hr⟩
      · omega
      · rw [hr]; simp
      · rw [hr]; simp
    · rcases hr with ⟨hr, _⟩ | ⟨hv, hr⟩ | ⟨⟨q, hq, hf⟩, hr⟩
      · exact .inl hr
      · rw [if_pos (hall.mpr hv), hr, spec_outline, List.flatMap_map]
        exact .inr rfl
      · rw [if_neg (fun hx => by rw [hall.mp hx q hq] at hf; cases hf)]
        exact .inr hr

open Classical in
/-- C57.  `print()` writes one line per key of the stored tree, in key order, indented by the depth of
the node that holds the key; it fails if, and only if, some key is not text.  Nothing but the cache
changes.  (`none`: the schedule, which says when reads are ready, was too short for `print` to end.) -/
theorem print_outline {s : St} (hs : Reachable s) (h2 : 2 ≤ s.core.length) : ∃ t, StoresRoot s.core t ∧
    ∀ sched, ∃ r s', print sched s = (r, s') ∧ s'.core = s.core ∧
      (5 + 4 * t.inorder.length ≤ sched.count true → r ≠ .ok none) ∧
      (r = .ok none ∨ r = if ∀ k ∈ t.inorder, IsText k.2 then .ok (some ((t.outline 0).flatMap line))
        else .error .keyFromUtf8) :=
  hs.holds.elim fun _ h => h.print_outline h2

/-- Before the first write there is nothing to print: an error, while `height()` says 0. -/
theorem print_no_root {s : St} (h1 : s.core.length ≤ 1) (sched : List Bool) :
    print sched s = (.error .noRoot, s) := by
  have hroot : getRoot false s = (.ok none, s) := by
    rcases Nat.lt_or_ge s.core.length 1 with hl | hl
    · exact getRoot_zero_false (by omega)
    · exact getRoot_one (by omega) false
  unfold print
  rw [bind_ok hroot]
  rfl

theorem line_inj {p p' : Nat × Bytes} {x y : Bytes} (h1 : 9 ∉ p.2 ∧ 10 ∉ p.2) (h2 : 9 ∉ p'.2 ∧ 10 ∉ p'.2)
    (h : line p ++ x = line p' ++ y) : p = p' ∧ x = y := by
  obtain ⟨d, k⟩ := p
  obtain ⟨d', k'⟩ := p'
  simp only [line] at h h1 h2
  induction d generalizing d' with
  | zero =>
    cases d' with
    | zero =>
      simp only [List.replicate_zero, List.nil_append] at h
      induction k generalizing k' with
      | nil =>
        cases k' with
        | nil => simpa using h
        | cons b k' => simp at h; exact absurd (by simp [← h.1]) h2.2
      | cons a k ih =>
        cases k' with
        | nil => simp at h; exact absurd (by simp [h.1]) h1.2
        | cons b k' =>
          simp only [List.cons_append, List.cons.injEq] at h
          have := ih ⟨fun m => h1.1 (by simp [m]), fun m => h1.2 (by simp [m])⟩ k'
            ⟨fun m => h2.1 (by simp [m]), fun m => h2.2 (by simp [m])⟩ h.2
          simp only [Prod.mk.injEq, true_and] at this
          rw [h.1, this.1, this.2]; simp
    | succ d' =>
      cases k with
      | nil => simp [List.replicate_succ] at h
      | cons a k => simp [List.replicate_succ] at h; exact absurd (by simp [h.1]) h1.1
  | succ d ih =>
    cases d' with
    | zero =>
      cases k' with
      | nil => simp [List.replicate_succ] at h
      | cons a k' => simp [List.replicate_succ] at h; exact absurd (by simp [← h.1]) h2.1
    | succ d' =>
      simp only [List.replicate_succ, List.cons_append, List.cons.injEq, true_and] at h
      have := ih d' h
      simp only [Prod.mk.injEq] at this ⊢
      exact ⟨⟨by omega, this.1.2⟩, this.2⟩

theorem lines_inj : ∀ {l l' : List (Nat × Bytes)}, (∀ p ∈ l, 9 ∉ p.2 ∧ 10 ∉ p.2) → (∀ p ∈ l', 9 ∉ p.2 ∧ 10 ∉ p.2) →
    l.flatMap line = l'.flatMap line → l = l' := by
  intro l
  induction l with
  | nil =>
    intro l' _ _ h
    cases l' with
    | nil => rfl
    | cons p l' => simp [line] at h
  | cons p l ih =>
    intro l' ht hu h
    cases l' with
    | nil => simp [line] at h
    | cons p' l' =>
      simp only [List.flatMap_cons] at h
      obtain ⟨rfl, h'⟩ := line_inj (ht p (by simp)) (hu p' (by simp)) h
      rw [ih (fun q hq => ht q (by simp [hq])) (fun q hq => hu q (by simp [hq])) h']

theorem outline_inorder (t : STree) : ∀ d, ∀ p ∈ t.outline d, p.2 ∈ t.inorder.map (·.2) := by
  induction t using STree.ind with
  | h ks ts ih =>
    intro d p hp
    rw [STree.outline] at hp
    rw [STree.inorder]
    induction ts generalizing ks with
    | nil => cases ks <;> simp [STree.outline.weave, STree.inorder.weave] at hp ⊢ <;> aesop
    | cons t ts ih2 =>
      have h1 := ih t (by simp)
      have h2 := fun ks => ih2 ks (fun u hu => ih u (by simp [hu]))
      cases ks with
      | nil =>
        simp only [STree.outline.weave, STree.inorder.weave, List.mem_append, List.map_append] at hp ⊢
        rcases hp with hp | hp
        · exact .inl (h1 _ p hp)
        · exact .inr (h2 _ hp)
      | cons k ks =>
        simp only [STree.outline.weave, STree.inorder.weave, List.mem_append, List.map_append, List.map_cons,
          List.mem_cons] at hp ⊢
        rcases hp with hp | rfl | hp
        · exact .inl (h1 _ p hp)
        · exact .inr (.inl rfl)
        · exact .inr (.inr (h2 _ hp))

/-- C57, reading it back.  If no key contains a tab or a newline, the printed text determines the tree:
two B-trees printed alike have the same nodes with the same keys and the same children. -/
theorem print_readable {t u : STree} (bt : IsBTree t) (bu : IsBTree u)
    (ht : ∀ k ∈ t.inorder, 9 ∉ k.2 ∧ 10 ∉ k.2) (hu : ∀ k ∈ u.inorder, 9 ∉ k.2 ∧ 10 ∉ k.2)
    (h : (t.outline 0).flatMap line = (u.outline 0).flatMap line) : t.bare = u.bare := by
  have free : ∀ {v : STree}, (∀ k ∈ v.inorder, 9 ∉ k.2 ∧ 10 ∉ k.2) → ∀ p ∈ v.outline 0, 9 ∉ p.2 ∧ 10 ∉ p.2 := by
    intro v hv p hp
    obtain ⟨k, hk, he⟩ := List.mem_map.mp (outline_inorder v 0 p hp)
    rw [← he]
    exact hv k hk
  have ne : ∀ {v : STree}, IsBTree v → ∀ w ∈ v.proper, w.keys ≠ [] := by
    intro v bv w hw h0
    have := bv.least w hw
    rw [h0] at this
    simp at this
  exact outline_bare t u 0 bt.children (ne bt) bu.children (ne bu) (lines_inj (free ht) (free hu) h)

/-- Nine text keys make a tree of two levels: its text, byte for byte. -/
def printDemo : List Cmd := (List.range 9).map fun i => .put [UInt8.ofNat (97 + i)] none

example : Reachable (runSt printDemo St.init) ∧ 2 ≤ (runSt printDemo St.init).core.length ∧
    (print (List.replicate 60 true) (runSt printDemo St.init)).1 =
      .ok (some [9, 97, 10, 9, 98, 10, 9, 99, 10, 9, 100, 10, 101, 10, 9, 102, 10, 9, 103, 10, 9, 104, 10, 9, 105, 10]) :=
  ⟨⟨printDemo, rfl⟩, by decide +kernel, by decide +kernel⟩

/-- One key that is not text makes all of it unprintable, though every other call works. -/
example : (print (List.replicate 60 true) (runSt (printDemo ++ [.put [0xC0, 0x80] none]) St.init)).1 = .error .keyFromUtf8 := by
  decide +kernel

/-- Without the condition on tabs different outlines print alike: the key "tab a" at the top, or the
key "a" one level down. -/
example : [(0, [9, 97])].flatMap line = [(1, [97])].flatMap line := by decide

/-- A key with a newline looks like two keys. -/
example : (print (List.replicate 30 true) (runSt [.put [97, 10, 98] none] St.init)).1 =
    (print (List.replicate 30 true) (runSt [.put [97] none, .put [98] none] St.init)).1 := by decide +kernel

end Hyperbee
