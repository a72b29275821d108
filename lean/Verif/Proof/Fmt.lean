import Verif.Model.Fmt
import Verif.SpecDefect
import Verif.Proof.Flight
import Verif.Proof.Space
/-!
# Formatting a handle
-/

namespace Hyperbee

/-- The calls in flight: each is what it was, or one that only takes read locks, or has not ended. -/
theorem flight_keeps {P : Nat → Prog α → Prop} (hP : ∀ i {β : Type} (x : Atom β) (k : Except Err β → Prog α), P i (.step x k) →
    ∀ r, P i (k r)) (sched : List Nat) : ∀ (w : Flight α), (∀ i p, w.calls[i]? = some p → P i p) →
    ∀ i p, (w.run sched).calls[i]? = some p → P i p := by
  induction sched with
  | nil => exact fun w h => h
  | cons j js ih =>
    intro w h
    rw [show w.run (j :: js) = (w.poll j).run js from rfl]
    refine ih _ fun i p hp => ?_
    rcases w.poll_cases j with ⟨β, x, k, hx, _, e⟩ | ⟨β, x, k, _, _, _, e⟩ | ⟨e, _⟩
    · rw [e] at hp
      rw [List.getElem?_set] at hp
      split at hp
      · rename_i hij
        subst hij
        split at hp
        · cases hp
          exact hP j x k (h j _ hx) _
        · cases hp
      · exact h i p hp
    · rw [e] at hp; exact h i p hp
    · rw [e] at hp; exact h i p hp

theorem ReadLocks.next {β : Type} {x : Atom β} {k : Except Err β → Prog α} (h : ReadLocks α (.step x k)) (r : Except Err β) :
    ReadLocks α (k r) := h.2.2 r

theorem ReadLocks.never {p : Prog α} (h : ReadLocks α p) (a : Addr) : p.needs ≠ some (a, .write) ∧ (a, .write) ∉ p.holds := by
  cases p with
  | pure b => exact ⟨fun h => (by cases h), fun h => (by cases h)⟩
  | throw e => exact ⟨fun h => (by cases h), fun h => (by cases h)⟩
  | step x k => exact ⟨fun hn => (by cases h.1 _ _ hn), fun hg => (by cases h.2.1 _ hg)⟩

theorem readLocks_header (m : Option Metadata) : ReadLocks _ (Prog.exec (.createHeader m)) := by
  refine ReadLocks.replyOf _ ?_
  unfold Prog.createHeader
  refine ReadLocks.bind (readLocks_lift _ (.inl rfl) rfl) fun v => ?_
  split
  · trivial
  · exact readLocks_lift _ (.inl rfl) rfl

theorem tryRead_false {w : Flight α} {a : Addr} (h : w.tryRead a = false) :
    ∃ i p, w.calls[i]? = some p ∧ ((a, Mode.write) ∈ p.holds ∨ (i ∈ w.queue ∧ p.needs = some (a, .write))) := by
  unfold Flight.tryRead at h
  rw [Bool.and_eq_false_iff] at h
  rcases h with h | h
  · rw [List.all_eq_false] at h
    obtain ⟨p, hp, h⟩ := h
    obtain ⟨i, hi⟩ := List.mem_iff_getElem?.mp hp
    rw [Bool.not_eq_true, List.all_eq_false] at h
    obtain ⟨g, hg, h⟩ := h
    simp only [Bool.not_eq_true', decide_eq_false_iff_not, Classical.not_not] at h
    exact ⟨i, p, hi, .inl (h ▸ hg)⟩
  · rw [List.all_eq_false] at h
    obtain ⟨j, hj, h⟩ := h
    cases hp : w.calls[j]? with
    | none => rw [hp] at h; exact absurd rfl h
    | some p =>
      rw [hp] at h
      simp only [Bool.not_eq_true', decide_eq_false_iff_not, Classical.not_not] at h
      exact ⟨j, p, hp, .inr ⟨hj, h⟩⟩

theorem fmtPanics_of {w : Flight α} {n : Nat} (h : w.fmtPanics n = true) : w.FmtPanics := by
  unfold Flight.fmtPanics at h
  rw [List.any_eq_true] at h
  obtain ⟨q, _, h⟩ := h
  cases he : w.st.cache q with
  | none => rw [he] at h; cases h
  | some e =>
    rw [he] at h
    obtain ⟨a, ha, h⟩ := List.any_eq_true.mp h
    exact ⟨q, e, a, he, ha, by simpa using h⟩

theorem refersTo_children {c : List Bytes} {x y : Nat × Nat} {n : Node} (hn : nodeAt c ⟨x.1, x.2⟩ = some n)
    (h : RefersTo c x y) : ⟨y.1, y.2⟩ ∈ n.children := by
  obtain ⟨m, ls, l, j, h1, h2, h3, h4⟩ := h
  have hc := (wire_node hn h1 h2).2
  rw [hc] at h3 h4
  have key : ∀ (cs : List Child) (j : Nat) (a b : Nat), (cs.flatMap fun c => [c.seq, c.offset])[2 * j]? = some a →
      (cs.flatMap fun c => [c.seq, c.offset])[2 * j + 1]? = some b → ⟨a, b⟩ ∈ cs := by
    intro cs
    induction cs with
    | nil => intro j a b h; simp at h
    | cons c cs ih =>
      intro j a b h h'
      cases j with
      | zero =>
        simp at h h'
        subst h h'
        exact List.mem_cons_self
      | succ j =>
        rw [List.flatMap_cons] at h h'
        refine List.mem_cons_of_mem _ (ih j a b ?_ ?_)
        · rw [← h, show 2 * (j + 1) = [c.seq, c.offset].length + 2 * j from by simp; omega, List.getElem?_append_right (by omega)]
          simp
        · rw [← h', show 2 * (j + 1) + 1 = [c.seq, c.offset].length + (2 * j + 1) from by simp; omega,
            List.getElem?_append_right (by omega)]
          simp
  exact key _ _ _ _ h3 h4

end Hyperbee
