import Verif.Proof.SubMachine
import Verif.Props.Machine
import Verif.Props.SubConcurrent
/-!
# Machine integers in calls through sub-databases

Property C89 for src/prefixed.rs: prefixing, incrementing the prefix, and dropping as many bytes as
prefix and separator have.
-/

namespace Hyperbee

/-- A call on the database itself never panics, whatever calls through sub-databases came before. -/
theorem Mixed.calm {s : St} (hs : Mixed s) (c : Cmd) (m : String) : (exec c s).1 ≠ .error (.panic m) := by
  obtain ⟨xs, rfl⟩ := hs
  rw [(sub_history xs c).1]
  exact Reachable.calm ⟨_, rfl⟩ c m

/-- No call meets a node number out of range. -/
theorem Mixed.in_range {s : St} (hs : Mixed s) (x : Option Prefixed × Cmd) {m : String} (hm : m ∈ offsetPanics) :
    (execVia x s).1 ≠ .error (.panic m) := by
  obtain ⟨via, c⟩ := x
  cases via with
  | none => exact hs.calm c m
  | some p =>
    cases c with
    | get k => exact hs.calm (.get (p.pre ++ p.sep ++ k)) m
    | put k v => exact hs.calm (.put (p.pre ++ p.sep ++ k) v) m
    | putCas k v cas => exact hs.calm (.putCas (p.pre ++ p.sep ++ k) v cas) m
    | del k => exact hs.calm (.del (p.pre ++ p.sep ++ k)) m
    | delCas k cas => exact hs.calm (.delCas (p.pre ++ p.sep ++ k) cas) m
    | version => exact hs.calm .version m
    | createHeader b => exact hs.calm (.createHeader b) m
    | reopen => exact hs.calm .reopen m
    | traverse b sched =>
      show (replyOf (p.traverseSession b sched) (fun r => Reply.items r.1 r.2) s).1 ≠ _
      unfold replyOf Prefixed.traverseSession
      cases hb : b.build with
      | error e =>
        intro h
        have h : Reply.error e = .error (.panic m) := h
        injection h with h
        subst h
        unfold TraverseConfigBuilder.build at hb
        split at hb <;> cases hb
      | ok conf =>
        have hy := sub_yields hs p sched conf
        simp only []
        cases hcol : p.collect sched conf s with
        | mk res s' =>
          rw [hcol] at hy
          cases res with
          | ok r => rw [bind_ok hcol]; intro h; cases h
          | error e =>
            rw [bind_error hcol]
            intro h
            have h : Reply.error e = .error (.panic m) := h
            injection h with h
            subst h
            rcases hy with ⟨h, _⟩ | ⟨h, _⟩
            · cases h
            · injection h with h
              subst h
              revert hm
              decide

/-- C89, one call, through a sub-database or not: same reply, same blocks, same memory as with numbers without
end. -/
theorem machine_sub_call {μ : Machine} (hw : 4 ≤ μ.width) {s : St} (hs : Mixed s) (x : Option Prefixed × Cmd)
    (hx : x.2 ≠ .reopen) (hl : ShortVia (2 ^ (μ.width - 1)) x) (hf : (Prog.execVia x).Fits μ.room s) :
    (μ.execVia x).run s = (.ok (execVia x s).1, (execVia x s).2) := by
  rw [← run_execVia x hx s]
  refine (Meets.execVia (Machine.has hw) x hl).run hf fun m hm => ?_
  rw [run_execVia x hx s]
  intro h
  exact hs.in_range x hm (Except.ok.inj h)

/-- C89, histories of calls through sub-databases and on the database itself. -/
theorem machine_sub_history {μ : Machine} (hw : 4 ≤ μ.width) (xs : List (Option Prefixed × Cmd)) {s : St} (hs : Mixed s)
    (hf : HistoryFitsVia μ.room (2 ^ (μ.width - 1)) xs s) : μ.runsVia xs s = runVia xs s := by
  induction xs generalizing s with
  | nil => rfl
  | cons x xs ih =>
    have hrest := ih (hs.next x) hf.2.2
    have hhead : μ.callVia x s = execVia x s := by
      unfold Machine.callVia
      obtain ⟨via, c⟩ := x
      cases c with
      | reopen => cases via <;> rfl
      | _ => simp only [machine_sub_call hw hs _ (by intro h; cases h) hf.1 hf.2.1]
    unfold Machine.runsVia runVia
    simp only [hhead, hrest]

/-! ## Cases -/

instance Prefixed.decShort (L : Nat) (p : Prefixed) : (c : Cmd) → Decidable (p.Short L c)
  | .get k | .put k _ | .putCas k _ _ | .del k | .delCas k _ => inferInstanceAs (Decidable ((p.pre ++ p.sep ++ k).length < L))
  | .traverse b _ => by
    have hlim : (v : LimitValue) → Decidable (∀ k, v = .finite k → (p.pre ++ p.sep ++ k).length < L) := fun v =>
      match v with
      | .infinite _ => .isTrue (by intro k h; cases h)
      | .finite j => decidable_of_iff ((p.pre ++ p.sep ++ j).length < L)
          ⟨fun h k e => by injection e with e; subst e; exact h, fun h => h j rfl⟩
    have hconf : Decidable (∀ conf, b.build = .ok conf →
        (∀ k, conf.minValue = .finite k → (p.pre ++ p.sep ++ k).length < L) ∧
        ∀ k, conf.maxValue = .finite k → (p.pre ++ p.sep ++ k).length < L) :=
      match b.build with
      | .error _ => .isTrue (by intro conf h; cases h)
      | .ok c =>
        have := hlim c.minValue
        have := hlim c.maxValue
        decidable_of_iff ((∀ k, c.minValue = .finite k → (p.pre ++ p.sep ++ k).length < L) ∧
            ∀ k, c.maxValue = .finite k → (p.pre ++ p.sep ++ k).length < L)
          ⟨fun h conf e => by injection e with e; subst e; exact h, fun h => h c rfl⟩
    unfold Prefixed.Short
    exact inferInstance
  | .version | .createHeader _ | .reopen => .isTrue trivial

instance decShortVia (L : Nat) : (x : Option Prefixed × Cmd) → Decidable (ShortVia L x)
  | (none, _) => .isTrue trivial
  | (some p, c) => Prefixed.decShort L p c

instance decHistoryFitsVia (B L : Nat) : (xs : List (Option Prefixed × Cmd)) → (s : St) → Decidable (HistoryFitsVia B L xs s)
  | [], _ => .isTrue trivial
  | x :: xs, s =>
    have := decHistoryFitsVia B L xs (execVia x s).2
    inferInstanceAs (Decidable (_ ∧ _ ∧ _))

theorem subDemo_fits : HistoryFitsVia (pc32 true).room (2 ^ 31) subDemo St.init := by decide +kernel

/-- Two sub-databases and the database itself on a 32 bit target. -/
example : (pc32 true).runsVia subDemo St.init = runVia subDemo St.init :=
  machine_sub_history (by decide) subDemo ⟨[], rfl⟩ subDemo_fits

/-- The last byte of a prefix is not increased past 255. -/
example : (pc32 true).incrementBytes [7, 255] = .pure [7, 255, 0] ∧ (pc32 true).incrementBytes [7, 254] = .pure [7, 255] ∧
    (pc32 true).incrementBytes [] = .pure [0] := by
  refine ⟨rfl, rfl, rfl⟩

/-- Short keys are needed: with four bits, a key with the prefix before it is too long for any vector. -/
theorem machine_sub_tight :
    ((Machine.mk 4 false).callVia (some ⟨[1, 2, 3, 4], [0]⟩, .get [7, 8, 9]) St.init).1 = .error (.panic "capacity overflow") ∧
    (execVia (some ⟨[1, 2, 3, 4], [0]⟩, .get [7, 8, 9]) St.init).1 = .got none := by
  decide +kernel

end Hyperbee
