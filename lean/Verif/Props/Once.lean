import Verif.Proof.Once
import Verif.Props.SubConcurrent
import Verif.Props.Structure
/-!
# Every block is fetched once (C84)
-/

namespace Hyperbee

/-- Who decodes a block has it from the core. -/
theorem Atom.decodes_lt (x : Atom β) {s : St} {q : Nat} (h : q ∈ x.decodes s) : q < s.core.length := by
  induction x with
  | coreFetch q' =>
    simp only [Atom.decodes] at h
    split at h
    · rename_i e he
      simp only [List.mem_singleton] at h
      subst h
      cases hx : s.core[q]? with
      | some b => exact (List.getElem?_eq_some_iff.mp hx).1
      | none =>
        exfalso
        have : (getFromCore q s).1 ≠ .ok (some e) := by
          unfold getFromCore
          rw [bind_run]
          have hcg : (coreGet q s).1 = .ok none ∨ ∃ e, (coreGet q s).1 = .error e := by
            unfold coreGet
            simp only [hx]
            split <;> simp
          cases hc : coreGet q s with
          | mk r s1 =>
            rw [hc] at hcg
            rcases hcg with h | ⟨e', h⟩
            · simp only at h; subst h; intro h; cases h
            · simp only at h; subst h; intro h; cases h
        exact this he
    · cases h
  | under a m x ih => exact ih h
  | _ => cases h

theorem Prog.decodes_lt (p : Prog α) : ∀ {s : St} {q : Nat}, q ∈ p.decodes s → q < (p.run s).2.core.length := by
  induction p with
  | pure a => intro s q h; cases h
  | throw e => intro s q h; cases h
  | step x k ih =>
    intro s q h
    rcases List.mem_append.mp h with h | h
    · have h1 := Atom.decodes_lt x h
      have h2 := (Atom.grows x s).1.length_le
      have h3 := ((k (x.run s).1).grows (x.run s).2).1.length_le
      show q < ((k (x.run s).1).run (x.run s).2).2.core.length
      omega
    · exact ih _ h

theorem run_via (x : Option Prefixed × Cmd) (hx : x.2 ≠ .reopen) (s : St) :
    ((Prog.execVia x).run s).2 = (execVia x s).2 := by rw [run_execVia x hx s]

theorem decodedBy_spec : ∀ (xs : List (Option Prefixed × Cmd)) (s : St), (∀ x ∈ xs, x.2 ≠ .reopen) →
    (decodedBy xs s).Nodup ∧ (∀ q, (runVia xs s).2.cache q ≠ none ↔ s.cache q ≠ none ∨ q ∈ decodedBy xs s) ∧
    (∀ q ∈ decodedBy xs s, s.cache q = none ∧ q < (runVia xs s).2.core.length) ∧
    s.core.length ≤ (runVia xs s).2.core.length := by
  intro xs
  induction xs with
  | nil => intro s _; simp [decodedBy, runVia]
  | cons x xs ih =>
    intro s hx
    have hx0 := hx x (by simp)
    obtain ⟨h1, h2, h3, h4⟩ := (good1_execVia x (fun q => s.cache q ≠ none) (fun q => s.cache q ≠ none) fun _ h => h).run
      (s := s) fun _ h => h
    have hg := ((Prog.execVia x).grows s).1.length_le
    have hlt := fun q => Prog.decodes_lt (Prog.execVia x) (s := s) (q := q)
    rw [run_via x hx0] at h3 h4 hg
    simp only [run_via x hx0] at hlt
    obtain ⟨i1, i2, i3, i4⟩ := ih (execVia x s).2 fun y hy => hx y (by simp [hy])
    have e1 : (runVia (x :: xs) s).2 = (runVia xs (execVia x s).2).2 := rfl
    rw [e1]
    simp only [decodedBy, List.mem_append]
    refine ⟨?_, ?_, ?_, by omega⟩
    · exact List.nodup_append.mpr ⟨h2, i1, fun a ha b hb hab => h3 a (.inr ha) ((i3 b hb).1 ▸ hab ▸ rfl)⟩
    · intro q
      rw [i2 q]
      constructor
      · rintro (h | h)
        · rcases h4 q h with h | h | h
          · exact .inl h
          · exact .inl h
          · exact .inr (.inl h)
        · exact .inr (.inr h)
      · rintro (h | h | h)
        · exact .inl (h3 q (.inl h))
        · exact .inl (h3 q (.inr h))
        · exact .inr h
    · rintro q (h | h)
      · refine ⟨Classical.byContradiction fun hc => h1 q h hc, ?_⟩
        have := hlt q h
        omega
      · refine ⟨Classical.byContradiction fun hc => h3 q (.inl hc) (i3 q h).1, (i3 q h).2⟩

/-! ## C84 -/

/-- Calls that are awaited one after the other, on a handle in any state and a core with any contents:
no block is fetched from the core and decoded twice, nor one that was in the cache before; and what is in the cache
afterwards is what was there before and what was fetched.  So there are no more fetches than blocks. -/
theorem fetched_once (xs : List (Option Prefixed × Cmd)) (s : St) (hx : ∀ x ∈ xs, x.2 ≠ .reopen) :
    (decodedBy xs s).Nodup ∧ (∀ q ∈ decodedBy xs s, s.cache q = none) ∧
    (∀ q, (runVia xs s).2.cache q ≠ none ↔ s.cache q ≠ none ∨ q ∈ decodedBy xs s) ∧
    (decodedBy xs s).length ≤ (runVia xs s).2.core.length := by
  obtain ⟨h1, h2, h3, h4⟩ := decodedBy_spec xs s hx
  refine ⟨h1, fun q hq => (h3 q hq).1, h2, ?_⟩
  have := (h1.subperm (l₂ := List.range (runVia xs s).2.core.length) fun q hq => List.mem_range.mpr (h3 q hq).2).length_le
  simpa using this

/-- However calls overlap, none of them fetches and decodes a block twice. -/
theorem fetched_once_each (xs : List (Option Prefixed × Cmd)) (sched : List Nat) (s : St) :
    (Prog.decodedIn sched (xs.map Prog.execVia) s).Nodup :=
  (Thrifty.interleave sched _ s (fun _ q => s.cache q ≠ none) (fun _ q => s.cache q ≠ none) (by
    intro i p hp
    rw [List.getElem?_map] at hp
    cases hx : xs[i]? with
    | none => rw [hx] at hp; cases hp
    | some x => rw [hx] at hp; cases hp; exact good1_execVia x _ _ fun _ h => h) fun _ _ h => h).1

/-- Two of them may fetch the same one: overlapping gets of one key both fetch the root. -/
theorem fetched_twice : ∃ s sched q, Reachable s ∧
    (0, q) ∈ Prog.decodedIn sched ([(none, .get [1]), (none, .get [1])].map Prog.execVia) s ∧
    (1, q) ∈ Prog.decodedIn sched ([(none, .get [1]), (none, .get [1])].map Prog.execVia) s := by
  refine ⟨runSt [.put [1] none, .reopen] St.init, [0, 0, 1, 1, 0, 1], 1, ⟨_, rfl⟩, by decide +kernel, by decide +kernel⟩

/-- Sixty keys in three levels, on a fresh handle: looking up a key fetches nine blocks, looking it up
again none, looking up another and deleting the first the rest of what they need. -/
example : decodedBy [(none, .get (demoKey 3))] (St.open (runSt ascending St.init).core) = [60, 25, 49, 10, 5, 9, 2, 3, 4] ∧
    decodedBy [(none, .get (demoKey 3)), (none, .get (demoKey 3)), (none, .get (demoKey 4)), (none, .del (demoKey 3))]
      (St.open (runSt ascending St.init).core) = [60, 25, 49, 10, 5, 9, 2, 3, 4, 14] := by decide +kernel

end Hyperbee
