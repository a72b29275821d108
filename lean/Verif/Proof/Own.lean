import Verif.Proof.Readers
import Verif.Proof.Log
import Verif.Model.Crowd
/-!
# A reader with a handle of its own, while the core grows

Calls through other handles only append to the core.  `Known`: what a handle that has only been used
for reading has in memory is what the core holds.  (For handles that have been written through see
`Proof/Used.lean`.)
-/

namespace Hyperbee

/-- What the handle has in memory is what the core holds. -/
structure Known (Γ : Names) (s : St) : Prop where
  io : s.io = Io.good
  dom : ∀ a i, Γ a = some i → ∃ n, s.heap[a]? = some n ∧
    nodeAt s.core ⟨(Nat.unpair i).1, (Nat.unpair i).2⟩ = some n
  ent : ∀ q e, s.cache q = some e → ∃ b, blockAt s.core q = some b ∧
    ERel Γ e ⟨(List.range b.nodes.length).map fun j => Nat.pair q j, b.key, b.value⟩

theorem known_new (c : List Bytes) : Known (fun _ => none) (St.open c) :=
  ⟨rfl, fun _ _ h => (by cases h), fun _ _ h => (by cases h)⟩

/-- Others append to the core. -/
theorem Known.core {Γ : Names} {s : St} (h : Known Γ s) {c : List Bytes} (hc : s.core <+: c) :
    Known Γ { s with core := c } := by
  obtain ⟨t, rfl⟩ := hc
  refine ⟨h.io, ?_, ?_⟩
  · intro a i hi
    obtain ⟨n, h1, h2⟩ := h.dom a i hi
    exact ⟨n, h1, by rw [nodeAt_append (nodeAt_lt h2)]; exact h2⟩
  · intro q e he
    obtain ⟨b, h1, h2⟩ := h.ent q e he
    exact ⟨b, blockAt_append_some h1 _, h2⟩

theorem Known.heap {Γ : Names} {s : St} (h : Known Γ s) (xs : List Node) :
    Known Γ { s with heap := s.heap ++ xs } := by
  refine ⟨h.io, ?_, h.ent⟩
  intro a i hi
  obtain ⟨n, h1, h2⟩ := h.dom a i hi
  exact ⟨n, by simp [List.getElem?_append_left (List.getElem?_eq_some_iff.mp h1).1, h1], h2⟩

/-- Loading the nodes of a block. -/
theorem Known.load {Γ : Names} {s : St} (h : Known Γ s) {q : Nat} {b : Blk} (hb : blockAt s.core q = some b) :
    Γ.le (Γ.load s.heap.length b.nodes.length fun j => Nat.pair q j) ∧
    Known (Γ.load s.heap.length b.nodes.length fun j => Nat.pair q j) { s with heap := s.heap ++ b.nodes } := by
  have hle : Γ.le (Γ.load s.heap.length b.nodes.length fun j => Nat.pair q j) := by
    intro a i ha
    obtain ⟨n, h1, _⟩ := h.dom a i ha
    have := (List.getElem?_eq_some_iff.mp h1).1
    simp only [Names.load]
    rw [if_neg (by omega)]
    exact ha
  refine ⟨hle, h.io, ?_, ?_⟩
  · intro a i hi
    simp only [Names.load] at hi
    split at hi
    · rename_i hr
      simp only [Option.some.injEq] at hi
      subst hi
      have hlt : a - s.heap.length < b.nodes.length := by omega
      refine ⟨b.nodes[a - s.heap.length], ?_, ?_⟩
      · simp only []
        rw [List.getElem?_append_right hr.1, List.getElem?_eq_getElem hlt]
      · rw [Nat.unpair_pair]
        simp [nodeAt, hb, hlt]
    · exact (h.heap b.nodes).dom a i hi
  · intro q' e he
    obtain ⟨b', h1, h2⟩ := h.ent q' e he
    exact ⟨b', h1, h2.mono hle⟩

/-- Filing a block in the cache. -/
theorem Known.file {Γ : Names} {s : St} (h : Known Γ s) {q : Nat} {e : BlockEntry} {b : Blk}
    (hb : blockAt s.core q = some b)
    (hr : ERel Γ e ⟨(List.range b.nodes.length).map fun j => Nat.pair q j, b.key, b.value⟩) :
    Known Γ { s with cache := cacheInsert q e s.cache } := by
  refine ⟨h.io, h.dom, ?_⟩
  intro q' e1 h1
  by_cases hqq : q' = q
  · subst hqq
    simp only [cacheInsert, if_true, Option.some.injEq] at h1
    subst h1
    exact ⟨b, hb, hr⟩
  · simp only [cacheInsert, hqq, if_false] at h1
    exact h.ent q' e1 h1

/-! ## Names of the nodes of `F` -/

/-- All names are of nodes in blocks of `F`. -/
def Bd (F : List Bytes) (Γ : Names) : Prop := ∀ a i, Γ a = some i → (Nat.unpair i).1 < F.length

/-- The names of nodes in blocks of `F`. -/
def cut (F : List Bytes) (Γ : Names) : Names := fun a => (Γ a).filter fun i => decide ((Nat.unpair i).1 < F.length)

theorem bd_cut (F : List Bytes) (Γ : Names) : Bd F (cut F Γ) := by
  intro a i h
  simp only [cut, Option.filter_eq_some_iff, decide_eq_true_eq] at h
  exact h.2

theorem cut_le (F : List Bytes) (Γ : Names) : (cut F Γ).le Γ := by
  intro a i h
  simp only [cut, Option.filter_eq_some_iff] at h
  exact h.1

theorem cut_intro {F : List Bytes} {Γ : Names} {a i : Nat} (h : Γ a = some i) (hb : (Nat.unpair i).1 < F.length) :
    cut F Γ a = some i := by
  simp only [cut, Option.filter_eq_some_iff, decide_eq_true_eq]
  exact ⟨h, hb⟩

theorem le_cut {F : List Bytes} {Γ Γ' : Names} (hb : Bd F Γ) (h : Γ.le Γ') : Γ.le (cut F Γ') :=
  fun a i ha => cut_intro (h a i ha) (hb a i ha)

theorem Bd.of_le {F : List Bytes} {Γ Γ' : Names} (h : Γ.le Γ') (hb : Bd F Γ') : Bd F Γ :=
  fun a i ha => hb a i (h a i ha)

variable {F : List Bytes}

/-! ## What the core is asked for -/

theorem ideal_replyOf (s : St) (f : α → Reply) (p : Prog α) :
    ideal s (Prog.replyOf f p) = match ideal s p with
      | .ok a => .ok (f a)
      | .error e => .ok (.error e) := by
  induction p with
  | pure a => rfl
  | throw e => rfl
  | step x k ih => exact ih _

/-- Nodes refer to blocks that exist. -/
def Inward (F : List Bytes) : Prop := ∀ r n, nodeAt F r = some n →
  (∀ q ∈ n.keys, q < F.length) ∧ ∀ c ∈ n.children, c.seq < F.length

theorem erel_cut {Γ : Names} {q : Nat} (hq : q < F.length) {e : BlockEntry} {b : Blk}
    (h : ERel Γ e ⟨(List.range b.nodes.length).map fun j => Nat.pair q j, b.key, b.value⟩) :
    ERel (cut F Γ) e ⟨(List.range b.nodes.length).map fun j => Nat.pair q j, b.key, b.value⟩ := by
  refine ⟨h.key, h.value, ?_⟩
  have h3 := h.nodes
  simp only [List.forall₂_map_right_iff] at h3 ⊢
  exact h3.imp fun a j hj => cut_intro hj (by rw [Nat.unpair_pair]; exact hq)

theorem idealEntry_open {q : Nat} {b : Blk} (hb : blockAt F q = some b) :
    idealEntry (St.open F) q = .ok ⟨(List.range b.nodes.length).map fun j => Nat.pair q j, b.key, b.value⟩ := by
  unfold blockAt at hb
  cases hx : F[q]? with
  | none => simp [hx] at hb
  | some x =>
    simp only [hx, Option.bind_some] at hb
    simp [idealEntry, St.open, Io.good, hx, hb]

/-! ## Descents -/

/-- A descent that ends within fewer rounds ends the same way when more are allowed. -/
theorem ideal_nearestLoop_more (s : St) (k : LimitValue) : ∀ (n m : Nat), n ≤ m → ∀ (i : Nat) (p : NodePath),
    ideal s (Prog.nearestLoop k n i p) ≠ .error .diverge →
    ideal s (Prog.nearestLoop k m i p) = ideal s (Prog.nearestLoop k n i p) := by
  intro n
  induction n with
  | zero => intro m _ i p h; exact absurd rfl h
  | succ n ih =>
    intro m hm i p h
    obtain ⟨m, rfl⟩ : ∃ m', m = m' + 1 := ⟨m - 1, by omega⟩
    unfold Prog.nearestLoop at h ⊢
    rw [ideal_bind] at h ⊢
    rw [ideal_bind]
    cases h1 : ideal s (Prog.getIndexOfKey i k) with
    | error e => rfl
    | ok x =>
      simp only [h1] at h ⊢
      rw [ideal_bind] at h ⊢
      rw [ideal_bind]
      cases h2 : ideal s (Prog.isLeaf i) with
      | error e => rfl
      | ok l =>
        simp only [h2] at h ⊢
        split
        · rfl
        · rename_i hc
          rw [if_neg hc, ideal_bind] at h
          rw [ideal_bind, ideal_bind]
          cases h3 : ideal s (Prog.getChild i x.2) with
          | error e => rfl
          | ok a =>
            simp only [h3] at h ⊢
            exact ih m (by omega) _ _ h

theorem stepBound_mono {c : List Bytes} (h : F <+: c) : stepBound F ≤ stepBound c := by
  obtain ⟨t, rfl⟩ := h
  unfold stepBound
  cases F with
  | nil => simp only [List.length_nil, List.take_nil, List.map_nil, List.sum_nil, List.drop_nil]; omega
  | cons x F =>
    simp only [List.cons_append, List.take_succ_cons, List.take_zero, List.drop_succ_cons, List.drop_zero,
      List.length_cons, List.length_append, List.map_append, List.sum_append]
    omega

end Hyperbee
