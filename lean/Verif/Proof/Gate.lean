import Verif.Model.Gate
import Verif.Proof.Commit
import Verif.Proof.RelTop
import Verif.Proof.SteadyRun
import Verif.Proof.Sched
import Verif.Proof.Prefix
import Mathlib.Data.List.Perm.Basic
/-!
# Calls behind a readers–writer lock: the invariant
-/

namespace Hyperbee

theorem looks_or {c : Cmd} (h : c ≠ .reopen) : c.looks = !c.exclusive := by
  cases c <;> first | rfl | exact absurd rfl h

theorem looks_core {s : St} {d : Db} (h : Holds s d) {c : Cmd} (hl : c.looks = true) :
    (exec c s).2.core = s.core ∧ ideal s (Prog.exec c) = .ok (exec c s).1 := by
  obtain ⟨Γ, _, h2, h3⟩ := (sim_exec (s0 := s) (esc := false) hl).run (inv_start h.wf.rooms)
  rw [run_exec _ (by intro he; rw [he] at hl; cases hl)] at h2 h3
  refine ⟨h2.core, ?_⟩
  revert h3
  cases ideal s (Prog.exec c) with
  | error e => exact fun h => h.elim
  | ok a => exact fun h => by rw [show (exec c s).1 = a from h]

/-- What is known between two turns.  `t` is the state after the calls of the log, made one after the
other. -/
inductive Gate.Sound (g : Gate) (t : St) : Prop where
  /-- nobody has the lock for writing: those who have it are readers on one database -/
  | shared {s1 : St} {d : Db} {Γ : Names} : Holds s1 d → s1.core = t.core → Inv s1 Γ g.st →
      (∀ c p, (c, .running p) ∈ g.calls → c.looks = true ∧
        Ok s1 false p Γ fun Γ r => RR EqR Γ r (ideal s1 (Prog.exec c))) → Gate.Sound g t
  /-- somebody has, and nobody else has it -/
  | alone {s1 : St} {d : Db} (i : Nat) (c : Cmd) (p : Prog Reply) : Holds s1 d → s1.core = t.core → c.exclusive = true →
      g.calls[i]? = some (c, .running p) → (∀ j q, j ≠ i → g.calls[j]? = some q → q.2.holds = false) →
      p.run g.st = (.ok (exec c s1).1, (exec c s1).2) → Gate.Sound g t

theorem mem_set {α : Type u} {l : List α} {i : Nat} {a b : α} (h : b ∈ l.set i a) : b = a ∨ b ∈ l := by
  rcases List.mem_or_eq_of_mem_set h with h | h
  · exact .inr h
  · exact .inl h

theorem free_iff {g : Gate} {c : Cmd} : g.free c = true ↔ ∀ q ∈ g.calls, q.2.holds = true →
    c.exclusive = false ∧ q.1.exclusive = false := by
  unfold Gate.free
  rw [List.all_eq_true]
  refine forall_congr' fun q => forall_congr' fun _ => ?_
  cases q.2.holds <;> cases c.exclusive <;> cases q.1.exclusive <;> simp

/-- The invariant over one turn. -/
theorem Gate.Sound.turn {g : Gate} {s : St} {d : Db} (hs : Holds s d) (hre : ∀ q ∈ g.calls, q.1 ≠ .reopen)
    (hlog : runReplies (g.log.map (·.1)) s = g.log.map (·.2))
    (h : g.Sound (runSt (g.log.map (·.1)) s)) (x : Turn)
    (hx : ∀ i c p, x = .drop i → g.calls[i]? = some (c, .running p) → c.exclusive = false) :
    runReplies ((g.turn x).log.map (·.1)) s = (g.turn x).log.map (·.2) ∧
    (g.turn x).Sound (runSt ((g.turn x).log.map (·.1)) s) := by
  obtain ⟨dt, ht⟩ := holds_run (g.log.map (·.1)) hs
  have snoc : ∀ (c : Cmd) (r : Reply), r = (exec c (runSt (g.log.map (·.1)) s)).1 →
      runReplies ((g.log ++ [(c, r)]).map (·.1)) s = (g.log ++ [(c, r)]).map (·.2) ∧
      runSt ((g.log ++ [(c, r)]).map (·.1)) s = (exec c (runSt (g.log.map (·.1)) s)).2 := by
    intro c r hr
    rw [List.map_append, List.map_append, ← hlog]
    simp only [List.map_cons, List.map_nil]
    rw [runSt_snoc, runReplies_append, hr]
    exact ⟨rfl, rfl⟩
  cases x with
  | drop i =>
    simp only [Gate.turn, Gate.drop]
    split
    · exact ⟨hlog, h⟩
    · rename_i c ph hnf hi
      refine ⟨hlog, ?_⟩
      cases h with
      | shared h1 h2 h3 h4 =>
        refine .shared h1 h2 h3 fun c' p' hm => ?_
        rcases mem_set hm with h | h
        · cases h
        · exact h4 c' p' h
      | alone j c' p h1 h2 h3 h4 h5 h6 =>
        have hij : i ≠ j := by
          rintro rfl
          have := hx i c' p rfl h4
          rw [h3] at this
          cases this
        refine .alone j c' p h1 h2 h3 ?_ ?_ h6
        · show (g.calls.set i _)[j]? = _
          rw [List.getElem?_set_ne hij]
          exact h4
        · intro j' q hj' hq
          have hq : (g.calls.set i (c, Phase.dropped))[j']? = some q := hq
          by_cases hii : i = j'
          · subst hii
            rw [List.getElem?_set_self (List.getElem?_eq_some_iff.mp hi).1] at hq
            cases hq
            rfl
          · rw [List.getElem?_set_ne hii] at hq
            exact h5 j' q hj' hq
    · exact ⟨hlog, h⟩
  | poll i =>
    simp only [Gate.turn, Gate.poll]
    split
    · rename_i c hi
      split
      · rename_i hf
        refine ⟨hlog, ?_⟩
        rw [free_iff] at hf
        cases hex : c.exclusive with
        | true =>
          have hno : ∀ q ∈ g.calls, q.2.holds = false := by
            intro q hq
            cases hh : q.2.holds with
            | false => rfl
            | true => have := (hf q hq hh).1; rw [hex] at this; cases this
          cases h with
          | alone j c' p h1 h2 h3 h4 h5 h6 =>
            have := hno _ (List.mem_of_getElem? h4)
            cases this
          | shared h1 h2 h3 h4 =>
            refine .alone i c (Prog.exec c) (h3.holds h1) (by rw [h3.core, h2]) hex ?_ ?_ ?_
            · show (g.calls.set i _)[i]? = _
              rw [List.getElem?_set_self (List.getElem?_eq_some_iff.mp hi).1]
            · intro j q hj hq
              have hq : (g.calls.set i (c, Phase.running (Prog.exec c)))[j]? = some q := hq
              rw [List.getElem?_set_ne (Ne.symm hj)] at hq
              exact hno q (List.mem_of_getElem? hq)
            · exact run_exec c (hre _ (List.mem_of_getElem? hi)) g.st
        | false =>
          cases h with
          | alone j c' p h1 h2 h3 h4 h5 h6 =>
            have := (hf _ (List.mem_of_getElem? h4) rfl).2
            rw [h3] at this
            cases this
          | @shared s1 d' Γ h1 h2 h3 h4 =>
            refine .shared h1 h2 h3 fun c' p' hm => ?_
            rcases mem_set hm with h | h
            · cases h
              have hl : c.looks = true := by rw [looks_or (hre _ (List.mem_of_getElem? hi)), hex]; rfl
              exact ⟨hl, sim_exec hl⟩
            · exact h4 c' p' h
      · exact ⟨hlog, h⟩
    · rename_i c β x k hi
      refine ⟨hlog, ?_⟩
      cases h with
      | @alone s1 d' j c' p h1 h2 h3 h4 h5 h6 =>
        have hij : i = j := by
          by_cases hij : i = j
          · exact hij
          · exact absurd (h5 i _ hij hi) (by simp [Phase.holds])
        subst hij
        rw [hi] at h4
        cases h4
        refine .alone i c _ h1 h2 h3 ?_ ?_ h6
        · show (g.calls.set i _)[i]? = _
          rw [List.getElem?_set_self (List.getElem?_eq_some_iff.mp hi).1]
        · intro j q hj hq
          have hq : (g.calls.set i _)[j]? = some q := hq
          rw [List.getElem?_set_ne (Ne.symm hj)] at hq
          exact h5 j q hj hq
      | @shared s1 d' Γ h1 h2 h3 h4 =>
        obtain ⟨hl, hok⟩ := h4 c _ (List.mem_of_getElem? hi)
        obtain ⟨Γ', hle, hinv, hok'⟩ := Ok.next hok h3 (fun h => by cases h)
        refine .shared h1 h2 hinv fun c' p' hm => ?_
        rcases mem_set hm with h | h
        · cases h
          exact ⟨hl, hok'⟩
        · exact ⟨(h4 c' p' h).1, Ok.mono hle (h4 c' p' h).2⟩
    · rename_i c r hi
      cases h with
      | @alone s1 d' j c' p h1 h2 h3 h4 h5 h6 =>
        have hij : i = j := by
          by_cases hij : i = j
          · exact hij
          · exact absurd (h5 i _ hij hi) (by simp [Phase.holds])
        subst hij
        rw [hi] at h4
        cases h4
        have hst : g.st = (exec c s1).2 := congrArg Prod.snd h6
        have hr : r = (exec c s1).1 := Except.ok.inj (congrArg Prod.fst h6)
        obtain ⟨e1, e2⟩ := calls_same h1 ht h2.symm c
        obtain ⟨e3, e4⟩ := snoc c r (hr.trans e1)
        refine ⟨e3, ?_⟩
        rw [e4]
        have hh := (exec_refines h1 c).2
        refine .shared (s1 := g.st) (hst ▸ hh) (by rw [← e2, hst]) (inv_start (hst ▸ hh).wf.rooms) fun c' p' hm => ?_
        rcases List.getElem?_of_mem hm with ⟨j, hj⟩
        have hj : (g.calls.set i _)[j]? = some (c', Phase.running p') := hj
        by_cases hij : i = j
        · subst hij
          rw [List.getElem?_set_self (List.getElem?_eq_some_iff.mp hi).1] at hj
          cases hj
        · rw [List.getElem?_set_ne hij] at hj
          exact absurd (h5 j _ (Ne.symm hij) hj) (by simp [Phase.holds])
      | @shared s1 d' Γ h1 h2 h3 h4 =>
        obtain ⟨hl, hok⟩ := h4 c _ (List.mem_of_getElem? hi)
        have hr := hok Γ (.refl Γ)
        rw [(looks_core h1 hl).2] at hr
        have hr : r = (exec c s1).1 := hr
        obtain ⟨e1, e2⟩ := calls_same h1 ht h2.symm c
        obtain ⟨e3, e4⟩ := snoc c r (hr.trans e1)
        refine ⟨e3, ?_⟩
        rw [e4]
        refine .shared h1 (by rw [(looks_core ht hl).1, h2]) h3 fun c' p' hm => ?_
        rcases mem_set hm with h | h
        · cases h
        · exact h4 c' p' h
    · exact ⟨hlog, h⟩

/-! ## Runs -/

/-- The call has returned or was dropped. -/
def Phase.settled : Phase → Bool
  | .finished _ | .dropped => true
  | _ => false

/-- A turn changes nothing or one call that is not settled; the log grows by what returns. -/
theorem Gate.turn_calls (g : Gate) (t : Turn) :
    ((g.turn t).calls = g.calls ∧ (g.turn t).log = g.log) ∨
    ∃ i c ph ph', (t = .poll i ∨ t = .drop i) ∧ g.calls[i]? = some (c, ph) ∧ ph.settled = false ∧
      (g.turn t).calls = g.calls.set i (c, ph') ∧
      (((∀ r, ph' ≠ .finished r) ∧ (g.turn t).log = g.log) ∨
        ∃ r, ph' = .finished r ∧ (g.turn t).log = g.log ++ [(c, r)]) := by
  cases t with
  | drop i =>
    simp only [Gate.turn, Gate.drop]
    split
    · exact .inl ⟨rfl, rfl⟩
    · rename_i c ph hnf hi
      cases ph with
      | finished r => exact absurd rfl (hnf _)
      | dropped =>
        refine .inl ⟨?_, rfl⟩
        obtain ⟨hlt, he⟩ := List.getElem?_eq_some_iff.mp hi
        rw [← he]
        exact List.set_getElem_self hlt
      | waiting => exact .inr ⟨i, c, _, .dropped, .inr rfl, hi, rfl, rfl, .inl ⟨fun r h => (nomatch h), rfl⟩⟩
      | running p => exact .inr ⟨i, c, _, .dropped, .inr rfl, hi, rfl, rfl, .inl ⟨fun r h => (nomatch h), rfl⟩⟩
    · exact .inl ⟨rfl, rfl⟩
  | poll i =>
    simp only [Gate.turn, Gate.poll]
    split
    · rename_i c hi
      split
      · exact .inr ⟨i, c, _, _, .inl rfl, hi, rfl, rfl, .inl ⟨fun r h => (nomatch h), rfl⟩⟩
      · exact .inl ⟨rfl, rfl⟩
    · rename_i hi
      exact .inr ⟨i, _, _, _, .inl rfl, hi, rfl, rfl, .inl ⟨fun r h => (nomatch h), rfl⟩⟩
    · rename_i c r hi
      exact .inr ⟨i, c, _, _, .inl rfl, hi, rfl, rfl, .inr ⟨r, rfl, rfl⟩⟩
    · exact .inl ⟨rfl, rfl⟩

theorem Gate.turn_cmds (g : Gate) (t : Turn) : (g.turn t).calls.map (·.1) = g.calls.map (·.1) := by
  rcases g.turn_calls t with ⟨h, _⟩ | ⟨i, c, ph, ph', _, hi, _, h, _⟩
  · rw [h]
  · rw [h, List.map_set]
    obtain ⟨hlt, he⟩ := List.getElem?_eq_some_iff.mp hi
    have : c = (g.calls.map (·.1))[i]'(by simpa using hlt) := by simp [he]
    rw [this]
    exact List.set_getElem_self _

theorem Gate.run_cmds (ts : List Turn) (g : Gate) : (Gate.run ts g).calls.map (·.1) = g.calls.map (·.1) := by
  induction ts generalizing g with
  | nil => rfl
  | cons t ts ih => exact (ih (g.turn t)).trans (g.turn_cmds t)

/-- The invariant over a run. -/
theorem Gate.Sound.run {s : St} {d : Db} (hs : Holds s d) : ∀ (ts : List Turn) (g : Gate),
    (∀ q ∈ g.calls, q.1 ≠ .reopen) → runReplies (g.log.map (·.1)) s = g.log.map (·.2) →
    g.Sound (runSt (g.log.map (·.1)) s) → Gate.careful ts g = true →
    runReplies ((Gate.run ts g).log.map (·.1)) s = (Gate.run ts g).log.map (·.2) ∧
    (Gate.run ts g).Sound (runSt ((Gate.run ts g).log.map (·.1)) s)
  | [], _, _, h1, h2, _ => ⟨h1, h2⟩
  | t :: ts, g, hre, h1, h2, hc => by
    simp only [Gate.careful, Bool.and_eq_true] at hc
    obtain ⟨h3, h4⟩ := h2.turn hs hre h1 t (by
      intro i c p ht hi
      subst ht
      have := hc.1
      simp only [hi] at this
      simpa using this)
    refine Gate.Sound.run hs ts (g.turn t) ?_ h3 h4 hc.2
    intro q hq
    have : q.1 ∈ g.calls.map (·.1) := g.turn_cmds t ▸ List.mem_map_of_mem hq
    obtain ⟨q', h5, h6⟩ := List.mem_map.mp this
    exact h6 ▸ hre q' h5

theorem Gate.start_sound {cs : List Cmd} {s : St} {d : Db} (hs : Holds s d) : (Gate.start cs s).Sound s :=
  .shared hs rfl (inv_start hs.wf.rooms) fun c p hm => by
    obtain ⟨c', _, h⟩ := List.mem_map.mp hm
    cases h

/-- Between two calls that write, the state holds what the calls of the log have written. -/
theorem Gate.Sound.quiet {g : Gate} {t : St} (h : g.Sound t) (hw : g.writing = false) :
    ∃ d, Holds g.st d ∧ g.st.core = t.core := by
  cases h with
  | shared h1 h2 h3 h4 => exact ⟨_, h3.holds h1, by rw [h3.core, h2]⟩
  | alone i c p h1 h2 h3 h4 h5 h6 =>
    unfold Gate.writing at hw
    rw [List.any_eq_false] at hw
    have := hw _ (List.mem_of_getElem? h4)
    simp [Phase.holds, h3] at this

/-! ## The log -/

theorem Gate.turn_log (g : Gate) (t : Turn) : ∃ rest, (g.turn t).log = g.log ++ rest := by
  rcases g.turn_calls t with ⟨_, h⟩ | ⟨i, c, ph, ph', _, hi, _, _, ⟨_, h⟩ | ⟨r, _, h⟩⟩
  · exact ⟨[], by simp [h]⟩
  · exact ⟨[], by simp [h]⟩
  · exact ⟨_, h⟩

theorem Gate.run_log (ts : List Turn) (g : Gate) : ∃ rest, (Gate.run ts g).log = g.log ++ rest := by
  induction ts generalizing g with
  | nil => exact ⟨[], by simp [Gate.run]⟩
  | cons t ts ih =>
    obtain ⟨r1, h1⟩ := g.turn_log t
    obtain ⟨r2, h2⟩ := ih (g.turn t)
    exact ⟨r1 ++ r2, by rw [← List.append_assoc, ← h1]; exact h2⟩

theorem filterMap_set {α : Type u} {β : Type v} (f : α → Option β) (l : List α) (i : Nat) (a b : α) (h : l[i]? = some a)
    (ha : f a = none) : ((l.set i b).filterMap f).Perm (l.filterMap f ++ (f b).toList) := by
  obtain ⟨hlt, he⟩ := List.getElem?_eq_some_iff.mp h
  have h1 : ((l.set i b).filterMap f).Perm ((b :: l.eraseIdx i).filterMap f) :=
    (List.set_perm_cons_eraseIdx hlt b).filterMap f
  have h2 : ((l[i] :: l.eraseIdx i).filterMap f).Perm (l.filterMap f) :=
    (List.getElem_cons_eraseIdx_perm hlt).filterMap f
  rw [he, List.filterMap_cons, ha] at h2
  refine h1.trans ?_
  rw [List.filterMap_cons]
  cases f b with
  | none => simpa using h2
  | some y => exact (h2.cons y).trans (List.perm_append_singleton _ _).symm

theorem Gate.turn_returned (g : Gate) (t : Turn) (h : g.returned.Perm g.log) : (g.turn t).returned.Perm (g.turn t).log := by
  rcases g.turn_calls t with ⟨h1, h2⟩ | ⟨i, c, ph, ph', _, hi, hst, h1, h2⟩
  · unfold Gate.returned
    rw [h1, h2]
    exact h
  · unfold Gate.returned
    rw [h1]
    refine (filterMap_set _ _ _ _ _ hi ?_).trans ?_
    · cases ph <;> first | rfl | cases hst
    · rcases h2 with ⟨h2, h3⟩ | ⟨r, h2, h3⟩
      · rw [h3]
        cases ph' with
        | finished r => exact absurd rfl (h2 r)
        | waiting => exact (List.append_nil _).symm ▸ h
        | running p => exact (List.append_nil _).symm ▸ h
        | dropped => exact (List.append_nil _).symm ▸ h
      · rw [h3, h2]
        exact h.append_right _

theorem Gate.run_returned (ts : List Turn) (g : Gate) (h : g.returned.Perm g.log) :
    (Gate.run ts g).returned.Perm (Gate.run ts g).log := by
  induction ts generalizing g with
  | nil => exact h
  | cons t ts ih => exact ih (g.turn t) (g.turn_returned t h)

theorem perm_two {α : Type u} {a b : α} {l : List α} (h : [a, b].Perm l) : l = [a, b] ∨ l = [b, a] := by
  rcases l with _ | ⟨x, _ | ⟨y, _ | ⟨z, l⟩⟩⟩
  · cases h.length_eq
  · cases h.length_eq
  · have hx : x ∈ [a, b] := h.mem_iff.mpr (.head _)
    rcases List.mem_cons.mp hx with rfl | hx
    · exact .inl (by rw [List.perm_singleton.mp h.cons_inv.symm])
    · obtain rfl := List.mem_singleton.mp hx
      exact .inr (by rw [List.perm_singleton.mp ((List.Perm.swap _ _ _).trans h).cons_inv.symm])
  · cases h.length_eq

/-! ## Coming to an end -/

/-- The calls that have neither returned nor been dropped. -/
def Gate.open (g : Gate) : Nat := g.calls.countP fun q => !q.2.settled

theorem countP_set_lt {α : Type u} (f : α → Bool) : ∀ (l : List α) (i : Nat) (a b : α), l[i]? = some a → f a = true →
    (l.set i b).countP f + 1 = l.countP f + if f b then 1 else 0
  | [], i, a, b, h, _ => by simp at h
  | x :: l, 0, a, b, h, ha => by
    simp only [List.getElem?_cons_zero, Option.some.injEq] at h
    subst h
    simp only [List.set_cons_zero, List.countP_cons, ha, if_true]
    omega
  | x :: l, i + 1, a, b, h, ha => by
    have := countP_set_lt f l i a b (by simpa using h) ha
    simp only [List.set_cons_succ, List.countP_cons]
    omega

theorem Gate.turn_open (g : Gate) (t : Turn) : (g.turn t).open ≤ g.open := by
  rcases g.turn_calls t with ⟨h1, _⟩ | ⟨i, c, ph, ph', _, hi, hst, h1, _⟩
  · unfold Gate.open
    rw [h1]
  · unfold Gate.open
    rw [h1]
    have := countP_set_lt (fun q : Cmd × Phase => !q.2.settled) _ i _ (c, ph') hi (by simp [hst])
    split at this <;> omega

/-- The state of call `i` changes only in its own turns. -/
theorem Gate.turn_other (g : Gate) (t : Turn) (i : Nat) (h1 : t ≠ .poll i) (h2 : t ≠ .drop i) :
    (g.turn t).calls[i]? = g.calls[i]? := by
  rcases g.turn_calls t with ⟨h, _⟩ | ⟨j, c, ph, ph', ht, hi, hst, h, _⟩
  · rw [h]
  · rw [h, List.getElem?_set_ne]
    rintro rfl
    rcases ht with rfl | rfl
    · exact h1 rfl
    · exact h2 rfl

theorem Gate.turn_drop {g : Gate} {i : Nat} {c : Cmd} {ph : Phase} (hi : g.calls[i]? = some (c, ph))
    (hs : ph.settled = false) : (g.turn (.drop i)).open < g.open := by
  have h1 : (g.turn (.drop i)).calls = g.calls.set i (c, .dropped) := by
    cases ph with
    | waiting => simp only [Gate.turn, Gate.drop, hi]
    | running p => simp only [Gate.turn, Gate.drop, hi]
    | finished r => cases hs
    | dropped => cases hs
  unfold Gate.open
  rw [h1]
  have := countP_set_lt (fun q : Cmd × Phase => !q.2.settled) _ i _ (c, .dropped) hi (by simp [hs])
  rw [if_neg (by simp [Phase.settled])] at this
  omega

/-- The state after the first `n` turns. -/
def Gate.upto (f : Nat → Turn) (g : Gate) : Nat → Gate
  | 0 => g
  | n + 1 => (Gate.upto f g n).turn (f n)

theorem Gate.run_upto (f : Nat → Turn) (g : Gate) (n : Nat) : Gate.run ((List.range n).map f) g = Gate.upto f g n := by
  induction n with
  | zero => rfl
  | succ n ih =>
    rw [List.range_succ, List.map_append]
    unfold Gate.run at *
    rw [List.foldl_append, ih]
    rfl

theorem Gate.upto_open (f : Nat → Turn) (g : Gate) {n m : Nat} (h : n ≤ m) : (Gate.upto f g m).open ≤ (Gate.upto f g n).open := by
  induction h with
  | refl => exact Nat.le_refl _
  | step _ ih => exact Nat.le_trans (Gate.turn_open _ _) ih

/-- Until its next poll a call stays as it is, or it is dropped. -/
theorem Gate.until_poll (f : Nat → Turn) (g : Gate) {i : Nat} {c : Cmd} {ph : Phase} (hs : ph.settled = false) {n : Nat}
    (hi : (Gate.upto f g n).calls[i]? = some (c, ph)) {m : Nat} (hm : n ≤ m) (hf : f m = .poll i) :
    (∃ k, n ≤ k ∧ (Gate.upto f g k).open < (Gate.upto f g n).open) ∨
    ∃ k, n ≤ k ∧ f k = .poll i ∧ (Gate.upto f g k).calls[i]? = some (c, ph) := by
  obtain ⟨e, rfl⟩ := Nat.le.dest hm
  induction e generalizing n with
  | zero => exact .inr ⟨n, Nat.le_refl _, hf, hi⟩
  | succ e ih =>
    by_cases h1 : f n = .poll i
    · exact .inr ⟨n, Nat.le_refl _, h1, hi⟩
    by_cases h2 : f n = .drop i
    · refine .inl ⟨n + 1, Nat.le_succ _, ?_⟩
      show ((Gate.upto f g n).turn (f n)).open < _
      rw [h2]
      exact Gate.turn_drop hi hs
    have hi' : (Gate.upto f g (n + 1)).calls[i]? = some (c, ph) := by
      show ((Gate.upto f g n).turn (f n)).calls[i]? = _
      rw [Gate.turn_other _ _ _ h1 h2, hi]
    rcases ih (n := n + 1) hi' (by omega) (by rw [← hf]; congr 1; omega) with ⟨k, h3, h4⟩ | ⟨k, h3, h4, h5⟩
    · exact .inl ⟨k, by omega, Nat.lt_of_lt_of_le h4 (Gate.upto_open f g (Nat.le_succ _))⟩
    · exact .inr ⟨k, by omega, h4, h5⟩

/-- A call that has the lock comes to an end. -/
theorem Gate.running_ends (f : Nat → Turn) (g : Gate) {i : Nat} {c : Cmd} (hf : ∀ n, ∃ m, n ≤ m ∧ f m = .poll i) (p : Prog Reply) :
    Replies p → ∀ n, (Gate.upto f g n).calls[i]? = some (c, .running p) →
    ∃ k, n ≤ k ∧ (Gate.upto f g k).open < (Gate.upto f g n).open := by
  induction p with
  | throw e => exact fun h => h.elim
  | pure r =>
    intro _ n hi
    obtain ⟨m, hm, hfm⟩ := hf n
    rcases Gate.until_poll f g rfl hi hm hfm with h | ⟨k, hk, hfk, hik⟩
    · exact h
    · refine ⟨k + 1, by omega, Nat.lt_of_lt_of_le ?_ (Gate.upto_open f g hk)⟩
      show ((Gate.upto f g k).turn (f k)).open < _
      rw [hfk]
      simp only [Gate.turn, Gate.poll, hik]
      unfold Gate.open
      have := countP_set_lt (fun q : Cmd × Phase => !q.2.settled) _ i _ (c, .finished r) hik rfl
      rw [if_neg (by simp [Phase.settled])] at this
      show ((Gate.upto f g k).calls.set i _).countP _ < _
      omega
  | step x k ih =>
    intro hr n hi
    obtain ⟨m, hm, hfm⟩ := hf n
    rcases Gate.until_poll f g rfl hi hm hfm with h | ⟨j, hj, hfj, hij⟩
    · exact h
    · obtain ⟨j', h1, h2⟩ := ih _ (hr _) (j + 1) (by
        show ((Gate.upto f g j).turn (f j)).calls[i]? = _
        rw [hfj]
        simp only [Gate.turn, Gate.poll, hij]
        rw [List.getElem?_set_self (List.getElem?_eq_some_iff.mp hij).1])
      exact ⟨j', by omega, Nat.lt_of_lt_of_le h2 (Gate.upto_open f g (by omega))⟩

/-- What runs is the rest of a call. -/
theorem Gate.turn_replies (g : Gate) (t : Turn) (h : ∀ c p, (c, .running p) ∈ g.calls → Replies p) :
    ∀ c p, (c, .running p) ∈ (g.turn t).calls → Replies p := by
  cases t with
  | drop i =>
    simp only [Gate.turn, Gate.drop]
    split
    · exact h
    · intro c p hm
      rcases mem_set hm with h' | h'
      · cases h'
      · exact h c p h'
    · exact h
  | poll i =>
    simp only [Gate.turn, Gate.poll]
    split
    · split
      · intro c p hm
        rcases mem_set hm with h' | h'
        · cases h'; exact replies_exec _
        · exact h c p h'
      · exact h
    · rename_i hi
      intro c p hm
      rcases mem_set hm with h' | h'
      · cases h'
        exact h _ _ (List.mem_of_getElem? hi) _
      · exact h c p h'
    · intro c p hm
      rcases mem_set hm with h' | h'
      · cases h'
      · exact h c p h'
    · exact h

theorem Gate.upto_replies (f : Nat → Turn) (g : Gate) (h : ∀ c p, (c, .running p) ∈ g.calls → Replies p) (n : Nat) :
    ∀ c p, (c, .running p) ∈ (Gate.upto f g n).calls → Replies p := by
  induction n with
  | zero => exact h
  | succ n ih => exact Gate.turn_replies _ _ ih

theorem Gate.upto_length (f : Nat → Turn) (g : Gate) (n : Nat) : (Gate.upto f g n).calls.length = g.calls.length := by
  rw [← Gate.run_upto]
  have := congrArg List.length (Gate.run_cmds ((List.range n).map f) g)
  simpa using this

/-- While a call is open, some call comes to an end. -/
theorem Gate.some_ends (f : Nat → Turn) (g : Gate) (h : ∀ c p, (c, .running p) ∈ g.calls → Replies p)
    (hf : ∀ i < g.calls.length, ∀ n, ∃ m, n ≤ m ∧ f m = .poll i) (n : Nat) (hn : 0 < (Gate.upto f g n).open) :
    ∃ k, n ≤ k ∧ (Gate.upto f g k).open < (Gate.upto f g n).open := by
  have hrun : ∀ k, n ≤ k → (∃ c p, (c, Phase.running p) ∈ (Gate.upto f g k).calls) →
      ∃ k, n ≤ k ∧ (Gate.upto f g k).open < (Gate.upto f g n).open := by
    rintro k hk ⟨c, p, hm⟩
    obtain ⟨i, hi⟩ := List.getElem?_of_mem hm
    have hlt := (List.getElem?_eq_some_iff.mp hi).1
    rw [Gate.upto_length] at hlt
    obtain ⟨k', h1, h2⟩ := Gate.running_ends f g (hf i hlt) p (Gate.upto_replies f g h k c p hm) k hi
    exact ⟨k', by omega, Nat.lt_of_lt_of_le h2 (Gate.upto_open f g hk)⟩
  unfold Gate.open at hn
  rw [List.countP_pos_iff] at hn
  obtain ⟨⟨c, ph⟩, hm, hs⟩ := hn
  obtain ⟨i, hi⟩ := List.getElem?_of_mem hm
  have hlt := (List.getElem?_eq_some_iff.mp hi).1
  rw [Gate.upto_length] at hlt
  cases ph with
  | finished r => cases hs
  | dropped => cases hs
  | running p => exact hrun n (Nat.le_refl _) ⟨c, p, hm⟩
  | waiting =>
    obtain ⟨m, hm, hfm⟩ := hf i hlt n
    rcases Gate.until_poll f g rfl hi hm hfm with h' | ⟨k, hk, hfk, hik⟩
    · exact h'
    · by_cases hfree : (Gate.upto f g k).free c = true
      · refine hrun (k + 1) (by omega) ⟨c, Prog.exec c, ?_⟩
        show _ ∈ ((Gate.upto f g k).turn (f k)).calls
        rw [hfk]
        simp only [Gate.turn, Gate.poll, hik, hfree, if_true]
        exact List.mem_of_getElem? (List.getElem?_set_self (List.getElem?_eq_some_iff.mp hik).1)
      · rw [free_iff] at hfree
        by_cases hany : ∃ q ∈ (Gate.upto f g k).calls, q.2.holds = true
        · obtain ⟨⟨c', ph'⟩, h1, h2⟩ := hany
          cases ph' with
          | running p => exact hrun k hk ⟨c', p, h1⟩
          | waiting => cases h2
          | finished r => cases h2
          | dropped => cases h2
        · exact absurd (fun q h1 h2 => absurd ⟨q, h1, h2⟩ hany) hfree

theorem Gate.all_end (f : Nat → Turn) (g : Gate) (h : ∀ c p, (c, .running p) ∈ g.calls → Replies p)
    (hf : ∀ i < g.calls.length, ∀ n, ∃ m, n ≤ m ∧ f m = .poll i) : ∃ n, (Gate.upto f g n).open = 0 := by
  have : ∀ j n, (Gate.upto f g n).open ≤ j → ∃ n, (Gate.upto f g n).open = 0 := by
    intro j
    induction j with
    | zero => exact fun n hn => ⟨n, by omega⟩
    | succ j ih =>
      intro n hn
      by_cases h0 : (Gate.upto f g n).open = 0
      · exact ⟨n, h0⟩
      · obtain ⟨k, _, hk⟩ := Gate.some_ends f g h hf n (by omega)
        exact ih k (by omega)
  exact this _ 0 (Nat.le_refl _)

end Hyperbee
