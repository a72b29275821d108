import Verif.Model.Turmoil
import Verif.Proof.Trouble
import Verif.Proof.Lengths
import Verif.Props.Steps
/-!
# Calls that end when things go wrong
-/

namespace Hyperbee

theorem afterTroubled_pure {α : Type} (r : α) : ∀ (ts : List (Option Trouble)) (s : St), Prog.afterTroubled ts (.pure r) s = (.pure r, s) := by
  intro ts
  induction ts with
  | nil => intro s; rfl
  | cons o ts ih => intro s; exact ih s

/-- What goes wrong with a step ends the program. -/
theorem trouble_ends {β : Type} {x : Atom β} {k : Except Err β → Prog Reply} (hb : Bails (fun e => .pure (.error e)) (.step x k))
    (hg : GivesUp (.pure (.error .core)) (.step x k)) {o : Option Trouble} {m : M β} (h : o.bind x.trouble = some m) (s : St) :
    ∃ e, (ReadErr e ∨ e = .core) ∧ k (m s).1 = .pure (.error e) := by
  cases o with
  | none => cases h
  | some t =>
    cases t with
    | dropped => cases h
    | read f =>
      cases h1 : x.fail f with
      | none => simp only [Option.bind_some, Atom.trouble, h1] at h; cases h
      | some y =>
        simp only [Option.bind_some, Atom.trouble, h1] at h
        cases h
        obtain ⟨e, h2, h3⟩ := hb.1 f y h1
        exact ⟨e, .inl h2, h3⟩
    | append l =>
      rw [Option.bind_some, Atom.trouble] at h
      cases hx : x.appends with
      | false => rw [x.lose_none hx] at h; cases h
      | true =>
        obtain ⟨⟨m1, e1, f1⟩, m2, e2, f2⟩ := x.lose_some hx s
        refine ⟨.core, .inr rfl, ?_⟩
        cases l with
        | refused => rw [e1] at h; cases h; rw [f1]; exact hg.1 hx
        | stored => rw [e2] at h; cases h; rw [f2]; exact hg.1 hx

/-- As many steps as without troubles are enough. -/
theorem afterTroubled_ends {p : Prog Reply} (hb : Bails (fun e => .pure (.error e)) p) (hg : GivesUp (.pure (.error .core)) p)
    (hr : Replies p) : ∀ (ts : List (Option Trouble)) (s : St), some .dropped ∉ ts → p.steps s ≤ ts.length →
      ∃ r t, p.afterTroubled ts s = (.pure r, t) ∧ p.troubled ts s = (some (.ok r), t) := by
  induction p with
  | pure a => intro ts s _ _; exact ⟨a, s, afterTroubled_pure a ts s, rfl⟩
  | throw e => exact hr.elim
  | step x k ih =>
    intro ts s hd hn
    cases ts with
    | nil => simp only [Prog.steps, List.length_nil] at hn; omega
    | cons o ts =>
      have ho : o ≠ some .dropped := fun h => hd (by rw [h]; exact List.mem_cons_self)
      simp only [Prog.afterTroubled, Prog.nextTroubled, Prog.troubled, List.head?_cons, Option.join_some, List.tail_cons, ho, if_false]
      cases hm : o.bind x.trouble with
      | some m =>
        obtain ⟨e, _, he⟩ := trouble_ends hb hg hm s
        simp only [he]
        exact ⟨_, _, afterTroubled_pure _ _ _, rfl⟩
      | none =>
        simp only []
        simp only [Prog.steps, List.length_cons] at hn
        exact ih _ (hb.2 _) (hg.2 _) (hr _) ts _ (fun h => hd (List.mem_cons_of_mem _ h)) (Nat.le_of_succ_le_succ hn)

theorem Bails.after {g : Err → Prog α} {e : Prog α} : ∀ (n : Nat) {p : Prog α}, Bails g p → GivesUp e p → ∀ s,
    Bails g (p.after n s).1 ∧ GivesUp e (p.after n s).1 := by
  intro n
  induction n with
  | zero => intro p h h' s; exact ⟨h, h'⟩
  | succ n ih =>
    intro p h h' s
    cases p with
    | pure a => exact ih h h' s
    | throw e => exact ih h h' s
    | step x k => exact ih (h.2 _) (h'.2 _) _

theorem TreeAt.low {c : List Bytes} {H : Nat} {t : T} (ht : TreeAt c H t) : H ≤ Nat.log 5 c.length := by
  by_cases hne : t.flat = []
  · have : H = 0 := by
      have h8 := ht.good
      cases H with
      | zero => rfl
      | succ H =>
        exfalso
        obtain ⟨r, ks, ts⟩ := t
        obtain ⟨_, hfill, _⟩ := h8
        have h1 := hfill.2.2 rfl (by omega)
        have hsub := keys_sublist ks ts
        rw [T.flat] at hne
        rw [hne] at hsub
        have := hsub.length_le
        simp at this
        simp [this] at h1
    omega
  · have h1 := ht.good.lower_root hne
    have h2 := ht.entries_lt
    have h3 := ht.two
    exact Nat.le_log_of_pow_le (by omega) (by omega)

theorem Holds.steps_log {s : St} {d : Db} (hd : Holds s d) {c : Cmd} (hc : c.OfOneEntry) :
    (Prog.exec c).steps s ≤ 174 * (Nat.log 5 d.version + 1) := by
  rcases hd.store with hb | ⟨H, u, hu, _, _⟩
  · have := exec_steps_empty hb.1 hc
    omega
  · have h1 := hd.exec_steps hu hc
    have h2 := hu.low
    rw [← hd.ver] at h2
    cases c <;> simp only [Cmd.stepBound] at h1 <;> omega

theorem one_not_walks {c : Cmd} (hc : c.OfOneEntry) : c.walks = false := by
  cases c <;> first | rfl | exact hc.elim

end Hyperbee
