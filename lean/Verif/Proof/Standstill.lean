import Verif.Model.Turmoil
import Verif.Proof.Ring
import Verif.Proof.Once
import Verif.Proof.SubAsync
/-!
# Locks when steps fail and futures are dropped

What a call asks for while it holds a lock does not depend on how its steps went (`Fits.step`), so
nothing that goes wrong adds a way for calls to wait for each other.
-/

namespace Hyperbee

theorem nextTroubled_step {o : Option Trouble} (ho : o ≠ some .dropped) (x : Atom β) (k : Except Err β → Prog α) (s : St) :
    ∃ r s', (Prog.step x k).nextTroubled o s = (k r, s') := by
  simp only [Prog.nextTroubled, if_neg ho]
  cases o.bind x.trouble with
  | none => exact ⟨_, _, rfl⟩
  | some m => exact ⟨_, _, rfl⟩

theorem Flight.pollTroubled_cases (w : Flight α) (i : Nat) (o : Option Trouble) :
    (∃ (β : Type) (x : Atom β) (k : Except Err β → Prog α) (r : Except Err β) (s : St),
      w.calls[i]? = some (.step x k) ∧ w.grants i (.step x k) = true ∧
      w.pollTroubled i o = ⟨w.calls.set i (k r), s, w.queue.filter (· != i)⟩) ∨
    (∃ (β : Type) (x : Atom β) (k : Except Err β → Prog α), w.calls[i]? = some (.step x k) ∧ w.grants i (.step x k) = false ∧
      i ∉ w.queue ∧ w.pollTroubled i o = { w with queue := w.queue ++ [i] }) ∨
    (w.pollTroubled i o = w ∧ ∀ p, w.calls[i]? = some p → p.ended = true ∨ w.grants i p = false) ∨
    (∃ (β : Type) (x : Atom β) (k : Except Err β → Prog α), w.calls[i]? = some (.step x k) ∧ o = some .dropped ∧
      w.pollTroubled i o = ⟨w.calls.set i (.throw .core), w.st, w.queue.filter (· != i)⟩) := by
  unfold Flight.pollTroubled
  split
  · rename_i β x k hp
    by_cases ho : o = some .dropped
    · exact .inr (.inr (.inr ⟨β, x, k, hp, ho, if_pos ho⟩))
    rw [if_neg ho]
    by_cases hg : w.grants i (.step x k) = true
    · rw [if_pos hg]
      obtain ⟨r, s', e⟩ := nextTroubled_step ho x k w.st
      exact .inl ⟨β, x, k, r, s', hp, hg, by rw [e]⟩
    · rw [if_neg hg]
      rw [Bool.not_eq_true] at hg
      by_cases hq : i ∈ w.queue
      · rw [if_pos hq]
        exact .inr (.inr (.inl ⟨rfl, fun p h => by rw [hp] at h; cases h; exact .inr hg⟩))
      · exact .inr (.inl ⟨β, x, k, hp, hg, hq, if_neg hq⟩)
  · rename_i hp
    refine .inr (.inr (.inl ⟨rfl, fun p h => .inl ?_⟩))
    cases p with
    | step x k => exact absurd h (hp _ _ _)
    | _ => rfl

theorem Flight.pollTroubled_none (w : Flight α) (i : Nat) : w.pollTroubled i none = w.poll i := rfl

theorem Flight.runTroubled_none (w : Flight α) (sched : List Nat) : w.runTroubled (sched.map (·, none)) = w.run sched := by
  induction sched generalizing w with
  | nil => rfl
  | cons i is ih => exact ih (w.poll i)

theorem Flight.runTroubled_append (w : Flight α) (xs ys : List (Nat × Option Trouble)) :
    w.runTroubled (xs ++ ys) = (w.runTroubled xs).runTroubled ys := List.foldl_append

theorem Flight.pollTroubled_length (w : Flight α) (i : Nat) (o : Option Trouble) :
    (w.pollTroubled i o).calls.length = w.calls.length := by
  rcases w.pollTroubled_cases i o with ⟨β, x, k, r, s, _, _, e⟩ | ⟨β, x, k, _, _, _, e⟩ | ⟨e, _⟩ | ⟨β, x, k, _, _, e⟩ <;> rw [e] <;>
    simp

/-- One of the programs takes a step, whatever its outcome, or ends. -/
def Dwindles (ps' ps : List (Prog α)) : Prop :=
  ∃ (i : Nat) (β : Type) (x : Atom β) (k : Except Err β → Prog α),
    ps[i]? = some (.step x k) ∧ ((∃ r, ps' = ps.set i (k r)) ∨ ∃ e, ps' = ps.set i (.throw e))

theorem acc_throw (e : Err) {ps : List (Prog α)} (h : Acc Dwindles ps) : Acc Dwindles (.throw e :: ps) := by
  induction h with
  | intro ps _ ih =>
    refine ⟨_, fun ps' ⟨i, β, x, k, h, h'⟩ => ?_⟩
    cases i with
    | zero => cases h
    | succ i =>
      rcases h' with ⟨r, rfl⟩ | ⟨e, rfl⟩
      · exact ih _ ⟨i, β, x, k, h, .inl ⟨r, rfl⟩⟩
      · exact ih _ ⟨i, β, x, k, h, .inr ⟨e, rfl⟩⟩

theorem acc_dwindles (ps : List (Prog α)) : Acc Dwindles ps := by
  induction ps with
  | nil => exact ⟨_, fun _ ⟨i, β, x, k, h, _⟩ => by simp at h⟩
  | cons p ps ih =>
    induction p generalizing ps with
    | pure a =>
      induction ih with
      | intro ps _ ih =>
        refine ⟨_, fun ps' ⟨i, β, x, k, h, h'⟩ => ?_⟩
        cases i with
        | zero => cases h
        | succ i =>
          rcases h' with ⟨r, rfl⟩ | ⟨e, rfl⟩
          · exact ih _ ⟨i, β, x, k, h, .inl ⟨r, rfl⟩⟩
          · exact ih _ ⟨i, β, x, k, h, .inr ⟨e, rfl⟩⟩
    | throw a => exact acc_throw a ih
    | step x k ihk =>
      induction ih with
      | intro ps hps ih =>
        refine ⟨_, fun ps' ⟨i, β, x', k', h, h'⟩ => ?_⟩
        cases i with
        | zero =>
          cases h
          rcases h' with ⟨r, rfl⟩ | ⟨e, rfl⟩
          · exact ihk r ps ⟨ps, hps⟩
          · exact acc_throw e ⟨ps, hps⟩
        | succ i =>
          rcases h' with ⟨r, rfl⟩ | ⟨e, rfl⟩
          · exact ih _ ⟨i, β, x', k', h, .inl ⟨r, rfl⟩⟩
          · exact ih _ ⟨i, β, x', k', h, .inr ⟨e, rfl⟩⟩

/-- `Flight.settles` with what goes wrong. -/
theorem Flight.settlesTroubled {Inv G : Flight α → Prop} (hp : ∀ w i o, Inv w → Inv (w.pollTroubled i o))
    (hg : ∀ w, Inv w → (∀ p ∈ w.calls, p.ended = true) ∨ G w ∨
      ∃ j q, w.calls[j]? = some q ∧ q.ended = false ∧ w.grants j q = true) (w : Flight α) (hw : Inv w)
    (f : Nat → Nat × Option Trouble) (hf : ∀ i < w.calls.length, ∀ n, ∃ m, n ≤ m ∧ (f m).1 = i) :
    ∃ n, (∀ p ∈ (w.runTroubled ((List.range n).map f)).calls, p.ended = true) ∨
      G (w.runTroubled ((List.range n).map f)) := by
  obtain ⟨ps, hps⟩ : ∃ ps, ps = w.calls := ⟨_, rfl⟩
  have hacc := acc_dwindles ps
  induction hacc generalizing w f with
  | intro ps _ ih =>
    subst hps
    obtain ⟨c, hc⟩ : ∃ c, c = w.out := ⟨_, rfl⟩
    induction c using Nat.strongRecOn generalizing w f with
    | ind c ihc =>
      subst hc
      rcases hg w hw with h | h | ⟨j, q, hj, hq, hgr⟩
      · exact ⟨0, .inl h⟩
      · exact ⟨0, .inr h⟩
      · obtain ⟨m, _, hm⟩ := hf j (List.getElem?_eq_some_iff.mp hj).1 0
        -- until time `m` something happens
        have key : ∀ m (f : Nat → Nat × Option Trouble), (f m).1 = j →
            (∀ i < w.calls.length, ∀ n, ∃ m, n ≤ m ∧ (f m).1 = i) →
            ∃ n, (∀ p ∈ (w.runTroubled ((List.range n).map f)).calls, p.ended = true) ∨
              G (w.runTroubled ((List.range n).map f)) := by
          intro m
          induction m with
          | zero =>
            intro f hm hf
            have hf' : ∀ i < w.calls.length, ∀ n, ∃ m, n ≤ m ∧ (f (m + 1)).1 = i := fun i hi n => by
              obtain ⟨m, h1, h2⟩ := hf i hi (n + 1)
              exact ⟨m - 1, by omega, by rw [Nat.sub_add_cancel (by omega)]; exact h2⟩
            have hl := w.pollTroubled_length j (f 0).2
            suffices hs : Dwindles (w.pollTroubled j (f 0).2).calls w.calls by
              obtain ⟨n, hn⟩ := ih (w.pollTroubled j (f 0).2).calls hs (w.pollTroubled j (f 0).2) (hp w j _ hw)
                (fun n => f (n + 1)) (by rw [hl]; exact hf') rfl
              refine ⟨n + 1, ?_⟩
              rw [List.range_succ_eq_map, List.map_cons, List.map_map]
              unfold Flight.runTroubled at hn ⊢
              rw [List.foldl_cons, hm]
              exact hn
            rcases w.pollTroubled_cases j (f 0).2 with ⟨β, x, k, r, s, hx, _, e⟩ | ⟨β, x, k, hx, hng, _, e⟩ | ⟨e, hn⟩ | ⟨β, x, k, hx, _, e⟩
            · exact ⟨j, β, x, k, hx, .inl ⟨r, by rw [e]⟩⟩
            · rw [hj] at hx
              cases hx
              rw [hgr] at hng
              cases hng
            · rcases hn q hj with h | h
              · rw [h] at hq; cases hq
              · rw [h] at hgr; cases hgr
            · exact ⟨j, β, x, k, hx, .inr ⟨_, by rw [e]⟩⟩
          | succ m ihm =>
            intro f hm hf
            have hf' : ∀ i < w.calls.length, ∀ n, ∃ m, n ≤ m ∧ (f (m + 1)).1 = i := fun i hi n => by
              obtain ⟨m, h1, h2⟩ := hf i hi (n + 1)
              exact ⟨m - 1, by omega, by rw [Nat.sub_add_cancel (by omega)]; exact h2⟩
            have hl := w.pollTroubled_length (f 0).1 (f 0).2
            suffices hs : ∃ n, (∀ p ∈ ((w.pollTroubled (f 0).1 (f 0).2).runTroubled ((List.range n).map fun n => f (n + 1))).calls,
                p.ended = true) ∨ G ((w.pollTroubled (f 0).1 (f 0).2).runTroubled ((List.range n).map fun n => f (n + 1))) by
              obtain ⟨n, hn⟩ := hs
              refine ⟨n + 1, ?_⟩
              rw [List.range_succ_eq_map, List.map_cons, List.map_map]
              exact hn
            rcases w.pollTroubled_cases (f 0).1 (f 0).2 with ⟨β, x, k, r, s, hx, _, e⟩ | ⟨β, x, k, hx, hng, hnq, e⟩ | ⟨e, hn⟩ | ⟨β, x, k, hx, _, e⟩
            · exact ih (w.pollTroubled (f 0).1 (f 0).2).calls ⟨(f 0).1, β, x, k, hx, .inl ⟨r, by rw [e]⟩⟩ _ (hp w _ _ hw)
                (fun n => f (n + 1)) (by rw [hl]; exact hf') rfl
            · refine ihc (w.pollTroubled (f 0).1 (f 0).2).out ?_ (w.pollTroubled (f 0).1 (f 0).2) (hp w _ _ hw)
                (fun n => f (n + 1)) (by rw [hl]; exact hf') (fun y _ => acc_dwindles y) ?_ rfl
              · rw [e]
                unfold Flight.out
                refine filter_length_lt _ (fun x hx => ?_) (a := (f 0).1)
                  (List.mem_range.mpr (List.getElem?_eq_some_iff.mp hx).1) (by simpa using hnq) (by simp)
                simp only [List.mem_append, decide_eq_true_eq, not_or] at hx ⊢
                exact hx.1
              · intro ps' hps' w' hw' f' hf' e'
                rw [e] at hps'
                exact ih ps' hps' w' hw' f' hf' e'
            · rw [e]
              exact ihm (fun n => f (n + 1)) hm hf'
            · exact ih (w.pollTroubled (f 0).1 (f 0).2).calls ⟨(f 0).1, β, x, k, hx, .inr ⟨_, by rw [e]⟩⟩ _ (hp w _ _ hw)
                (fun n => f (n + 1)) (by rw [hl]; exact hf') rfl
        exact key m f hm hf

theorem Flight.Stuck.pollTroubled {w : Flight α} (h : w.Stuck) (i : Nat) {o : Option Trouble} (ho : o ≠ some .dropped) :
    w.pollTroubled i o = w.poll i := by
  cases hc : w.calls[i]? with
  | none => unfold Flight.pollTroubled Flight.poll; rw [hc]
  | some p =>
    cases p with
    | pure a => unfold Flight.pollTroubled Flight.poll; rw [hc]
    | throw e => unfold Flight.pollTroubled Flight.poll; rw [hc]
    | step x k =>
      unfold Flight.pollTroubled Flight.poll
      rw [hc]
      dsimp only
      rw [if_neg ho, h i _ hc rfl]
      rfl

theorem Flight.Stuck.runTroubled {w : Flight α} (h : w.Stuck) (sched : List (Nat × Option Trouble))
    (hd : ∀ x ∈ sched, x.2 ≠ some .dropped) :
    (w.runTroubled sched).calls = w.calls ∧ (w.runTroubled sched).st = w.st := by
  induction sched generalizing w with
  | nil => exact ⟨rfl, rfl⟩
  | cons x xs ih =>
    have e : w.runTroubled (x :: xs) = (w.poll x.1).runTroubled xs := by
      rw [← h.pollTroubled x.1 (hd x List.mem_cons_self)]
      rfl
    obtain ⟨h1, h2, h3⟩ := h.poll x.1
    obtain ⟨h4, h5⟩ := ih h1 fun y hy => hd y (List.mem_cons_of_mem _ hy)
    rw [e]
    exact ⟨h4.trans h2, h5.trans h3⟩

/-! ## The calls of the code -/

theorem fits_throw (c : Cmd) (e : Err) : Fits c (.throw e) := ⟨fun _ => trivial, fun _ => trivial, fun _ _ => trivial⟩

theorem Suits.pollTroubled {cs : List Cmd} {w : Flight Reply} (h : Suits cs w) (i : Nat) (o : Option Trouble) :
    Suits cs (w.pollTroubled i o) := by
  have key : ∀ q s' qu, (∀ c, cs[i]? = some c → Fits c q) → Suits cs ⟨w.calls.set i q, s', qu⟩ := by
    intro q s' qu hq
    refine ⟨by simpa using h.length, fun j c p hc hp => ?_⟩
    dsimp only at hp
    rw [List.getElem?_set] at hp
    split at hp
    · rename_i hij
      subst hij
      split at hp
      · cases hp; exact hq c hc
      · cases hp
    · exact h.fits j c p hc hp
  rcases w.pollTroubled_cases i o with ⟨β, x, k, r, s, hx, _, e⟩ | ⟨β, x, k, _, _, _, e⟩ | ⟨e, _⟩ | ⟨β, x, k, _, _, e⟩
  · rw [e]; exact key _ _ _ fun c hc => (h.fits i c _ hc hx).step _
  · rw [e]; exact ⟨h.length, h.fits⟩
  · rw [e]; exact h
  · rw [e]; exact key _ _ _ fun c _ => fits_throw c _

theorem fits_execVia (x : Option Prefixed × Cmd) : Fits x.2 (Prog.execVia x) := by
  obtain ⟨o, c⟩ := x
  cases o with
  | none => exact fits_exec c
  | some p =>
    have key : ∀ c' : Cmd, c'.walks = c.walks → c'.deletes = c.deletes → Fits c' (Prog.exec c') → Fits c (Prog.exec c') := by
      intro c' h1 h2 h
      unfold Fits at h ⊢
      rw [h1, h2] at h
      exact h
    cases c with
    | version => exact fits_exec .version
    | get k => exact key (.get (p.withKeyPrefix k)) rfl rfl (fits_exec _)
    | put k v => exact key (.put (p.withKeyPrefix k) v) rfl rfl (fits_exec _)
    | putCas k v cas => exact key (.putCas (p.withKeyPrefix k) v cas) rfl rfl (fits_exec _)
    | del k => exact key (.del (p.withKeyPrefix k)) rfl rfl (fits_exec _)
    | delCas k cas => exact key (.delCas (p.withKeyPrefix k) cas) rfl rfl (fits_exec _)
    | createHeader m => exact fits_exec (.createHeader m)
    | reopen => exact fits_exec .reopen
    | traverse b rs =>
      refine ⟨fun _ => ?_, (nomatch ·), (nomatch ·)⟩
      refine Twice.replyOf _ ?_
      unfold Prog.subTraverse
      cases b.build with
      | error e => trivial
      | ok conf =>
        exact (twice_acts.traverse_ _).bind fun fs =>
          (twice_acts.drive_ Twice.tryResult (fun a => twice_again a) (twice_acts.strip_ p) rs fs).bind fun _ => trivial

theorem suits_via (xs : List (Option Prefixed × Cmd)) (s : St) :
    Suits (xs.map (·.2)) (Flight.start (xs.map Prog.execVia) s) := by
  refine ⟨by simp [Flight.start], fun i c p hc hp => ?_⟩
  rw [show (Flight.start (xs.map Prog.execVia) s).calls = xs.map Prog.execVia from rfl, List.getElem?_map] at hp
  rw [List.getElem?_map] at hc
  cases hx : xs[i]? with
  | none => rw [hx] at hp; cases hp
  | some x =>
    rw [hx] at hp hc
    cases hp
    cases hc
    exact fits_execVia x

/-- Who was not dropped replies. -/
theorem replies_runTroubled (sched : List (Nat × Option Trouble)) {w : Flight α} {D : Nat → Prop}
    (h : ∀ (i : Nat) p, w.calls[i]? = some p → Replies p ∨ D i) (i : Nat) (p : Prog α)
    (hp : (w.runTroubled sched).calls[i]? = some p) : Replies p ∨ D i ∨ (i, some Trouble.dropped) ∈ sched := by
  induction sched generalizing w D with
  | nil => exact (h i p hp).imp id .inl
  | cons x xs ih =>
    obtain ⟨j, o⟩ := x
    have := ih (w := w.pollTroubled j o) (D := fun i => D i ∨ (i, some Trouble.dropped) = (j, o)) (fun l q hq => by
      have key : ∀ q' s' qu, w.pollTroubled j o = ⟨w.calls.set j q', s', qu⟩ →
          (Replies q' ∨ D j ∨ o = some .dropped) → Replies q ∨ D l ∨ (l, some Trouble.dropped) = (j, o) := by
        intro q' s' qu e hq'
        rw [e] at hq
        dsimp only at hq
        rw [List.getElem?_set] at hq
        split at hq
        · rename_i hij
          subst hij
          split at hq
          · cases hq; exact hq'.imp id (.imp id fun h => by rw [h])
          · cases hq
        · exact (h l q hq).imp id .inl
      rcases w.pollTroubled_cases j o with ⟨β, x, k, r, s, hx, _, e⟩ | ⟨β, x, k, _, _, _, e⟩ | ⟨e, _⟩ | ⟨β, x, k, _, ho, e⟩
      · exact key _ _ _ e ((h j _ hx).imp (fun h => h r) .inl)
      · rw [e] at hq; exact (h l q hq).imp id .inl
      · rw [e] at hq; exact (h l q hq).imp id .inl
      · exact key _ _ _ e (.inr (.inr ho))) hp
    rcases this with h | (h | h) | h
    · exact .inl h
    · exact .inr (.inl h)
    · exact .inr (.inr (by rw [h]; exact List.mem_cons_self))
    · exact .inr (.inr (List.mem_cons_of_mem _ h))

/-- `standstill_exact` with what goes wrong, for calls through sub-databases too. -/
theorem Suits.settles {cs : List Cmd} {w : Flight Reply} (h : Suits cs w) (f : Nat → Nat × Option Trouble)
    (hr : ∀ p ∈ w.calls, Replies p) (hf : ∀ i < w.calls.length, ∀ n, ∃ m, n ≤ m ∧ (f m).1 = i) :
    ∃ n, (∀ (i : Nat) p, (w.runTroubled ((List.range n).map f)).calls[i]? = some p →
        (∃ r, p.result = some r) ∨ (i, some Trouble.dropped) ∈ (List.range n).map f) ∨
      ((w.runTroubled ((List.range n).map f)).Stuck ∧ ∃ js, (w.runTroubled ((List.range n).map f)).Jam cs js) := by
  obtain ⟨n, hn⟩ := Flight.settlesTroubled (Inv := Suits cs) (G := fun w => w.Stuck ∧ ∃ js, w.Jam cs js)
    (fun w i o h => h.pollTroubled i o) (fun w h => by
      by_cases he : ∀ p ∈ w.calls, p.ended = true
      · exact .inl he
      · simp only [not_forall] at he
        obtain ⟨p, hp, hn⟩ := he
        obtain ⟨i, hi⟩ := List.getElem?_of_mem hp
        by_cases hg : ∃ (j : Nat) (q : Prog Reply), w.calls[j]? = some q ∧ q.ended = false ∧ w.grants j q = true
        · exact .inr (.inr hg)
        · refine .inr (.inl ⟨fun j q hj hq => ?_, h.progress hi (by simpa using hn) hg⟩)
          cases he : w.grants j q with
          | false => rfl
          | true => exact absurd ⟨j, q, hj, hq, he⟩ hg) w h f hf
  refine ⟨n, hn.imp (fun hn i p hp => ?_) id⟩
  rcases replies_runTroubled (D := fun _ => False) _ (fun i p hp => .inl (hr p (List.mem_of_getElem? hp))) i p hp with h1 | h1 | h1
  · exact .inl (h1.result (hn p (List.mem_of_getElem? hp)))
  · exact h1.elim
  · exact .inr h1

theorem Flight.pollTroubled_ended {w : Flight α} {i : Nat} {p : Prog α} (hp : w.calls[i]? = some p) (he : p.ended = true)
    (j : Nat) (o : Option Trouble) : (w.pollTroubled j o).calls[i]? = some p := by
  have key : ∀ {β : Type} {x : Atom β} {k : Except Err β → Prog α} (q : Prog α), w.calls[j]? = some (.step x k) →
      (w.calls.set j q)[i]? = some p := by
    intro β x k q hx
    rw [List.getElem?_set]
    split
    · rename_i hij
      subst hij
      rw [hx] at hp
      cases hp
      cases he
    · exact hp
  rcases w.pollTroubled_cases j o with ⟨β, x, k, r, s, hx, _, e⟩ | ⟨β, x, k, _, _, _, e⟩ | ⟨e, _⟩ | ⟨β, x, k, hx, _, e⟩ <;> rw [e]
  · exact key _ hx
  · exact hp
  · exact hp
  · exact key _ hx

theorem Flight.runTroubled_ended (sched : List (Nat × Option Trouble)) {w : Flight α} {i : Nat} {p : Prog α}
    (hp : w.calls[i]? = some p) (he : p.ended = true) : (w.runTroubled sched).calls[i]? = some p := by
  induction sched generalizing w with
  | nil => exact hp
  | cons x xs ih => exact ih (Flight.pollTroubled_ended hp he x.1 x.2)

theorem Flight.runTroubled_length (sched : List (Nat × Option Trouble)) (w : Flight α) :
    (w.runTroubled sched).calls.length = w.calls.length := by
  induction sched generalizing w with
  | nil => rfl
  | cons x xs ih => exact (ih (w.pollTroubled x.1 x.2)).trans (w.pollTroubled_length x.1 x.2)

theorem Flight.drop_ended (w : Flight α) {i : Nat} (hi : i < w.calls.length) :
    ∃ p, (w.pollTroubled i (some .dropped)).calls[i]? = some p ∧ p.ended = true := by
  cases hc : w.calls[i]? with
  | none => rw [List.getElem?_eq_none_iff] at hc; omega
  | some p =>
    cases p with
    | pure a => exact ⟨_, Flight.pollTroubled_ended hc rfl i _, rfl⟩
    | throw e => exact ⟨_, Flight.pollTroubled_ended hc rfl i _, rfl⟩
    | step x k =>
      refine ⟨.throw .core, ?_, rfl⟩
      unfold Flight.pollTroubled
      rw [hc]
      simp [hi]

/-- Who is dropped at some time has ended from then on. -/
theorem Flight.dropped_ended {w : Flight α} {f : Nat → Nat × Option Trouble} {i m : Nat} (hm : f m = (i, some .dropped))
    (hi : i < w.calls.length) {n : Nat} (hn : m < n) :
    ∃ p, (w.runTroubled ((List.range n).map f)).calls[i]? = some p ∧ p.ended = true := by
  induction n with
  | zero => omega
  | succ n ih =>
    rw [List.range_succ, List.map_append, Flight.runTroubled_append]
    by_cases h : m = n
    · subst h
      have := Flight.drop_ended (w.runTroubled ((List.range m).map f)) (i := i) (by rw [Flight.runTroubled_length]; exact hi)
      rw [List.map_cons, List.map_nil, hm]
      exact this
    · obtain ⟨p, h1, h2⟩ := ih (by omega)
      exact ⟨p, Flight.runTroubled_ended _ h1 h2, h2⟩

theorem Suits.runTroubled {cs : List Cmd} {w : Flight Reply} (h : Suits cs w) (sched : List (Nat × Option Trouble)) :
    Suits cs (w.runTroubled sched) := by
  induction sched generalizing w with
  | nil => exact h
  | cons x xs ih => exact ih (h.pollTroubled x.1 x.2)

theorem eventually_all {P : Nat → Nat → Prop} (hm : ∀ i m n, P i m → m ≤ n → P i n) {L : Nat} (h : ∀ i < L, ∃ m, P i m) :
    ∃ n, ∀ i < L, P i n := by
  induction L with
  | zero => exact ⟨0, fun i hi => absurd hi (by omega)⟩
  | succ L ih =>
    obtain ⟨n, hn⟩ := ih fun i hi => h i (by omega)
    obtain ⟨m, hm'⟩ := h L (by omega)
    refine ⟨max n m, fun i hi => ?_⟩
    by_cases e : i = L
    · subst e; exact hm _ _ _ hm' (by omega)
    · exact hm _ _ _ (hn i (by omega)) (by omega)

/-- If those that may be to blame are dropped at some time, all end. -/
theorem Suits.timeouts {cs : List Cmd} {w : Flight Reply} (h : Suits cs w) (f : Nat → Nat × Option Trouble)
    (hr : ∀ p ∈ w.calls, Replies p) (hf : ∀ i < w.calls.length, ∀ n, ∃ m, n ≤ m ∧ (f m).1 = i)
    (ht : ∀ (i : Nat) c, cs[i]? = some c → c.walks = true ∨ c.deletes = true → ∃ m, f m = (i, some .dropped)) :
    ∃ n, ∀ (i : Nat) p, (w.runTroubled ((List.range n).map f)).calls[i]? = some p →
        (∃ r, p.result = some r) ∨ (i, some Trouble.dropped) ∈ (List.range n).map f := by
  -- from `N` on, those have ended
  obtain ⟨N, hN⟩ := eventually_all (L := cs.length)
    (P := fun i n => ∀ c, cs[i]? = some c → c.walks = true ∨ c.deletes = true →
      ∃ p, (w.runTroubled ((List.range n).map f)).calls[i]? = some p ∧ p.ended = true)
    (fun i m n hP hmn c hc hk => by
      obtain ⟨p, h1, h2⟩ := hP c hc hk
      refine ⟨p, ?_, h2⟩
      obtain ⟨d, rfl⟩ : ∃ d, n = m + d := ⟨n - m, by omega⟩
      rw [List.range_add, List.map_append, Flight.runTroubled_append]
      exact Flight.runTroubled_ended _ h1 h2)
    (fun i hi => by
      by_cases hk : cs[i].walks = true ∨ cs[i].deletes = true
      · obtain ⟨m, hm⟩ := ht i _ (List.getElem?_eq_getElem hi) hk
        exact ⟨m + 1, fun c _ _ => Flight.dropped_ended hm (by rw [h.length]; exact hi) (by omega)⟩
      · exact ⟨0, fun c hc hk' => by rw [List.getElem?_eq_getElem hi] at hc; cases hc; exact absurd hk' hk⟩)
  obtain ⟨n, hn⟩ := Flight.settlesTroubled (Inv := fun v => Suits cs v ∧ ∀ (i : Nat) c, cs[i]? = some c →
      c.walks = true ∨ c.deletes = true → ∃ p, v.calls[i]? = some p ∧ p.ended = true) (G := fun _ => False)
    (fun v i o h => ⟨h.1.pollTroubled i o, fun j c hc hk => by
      obtain ⟨p, h1, h2⟩ := h.2 j c hc hk
      exact ⟨p, Flight.pollTroubled_ended h1 h2 i o, h2⟩⟩)
    (fun v h => by
      by_cases he : ∀ p ∈ v.calls, p.ended = true
      · exact .inl he
      · simp only [not_forall] at he
        obtain ⟨p, hp, hn⟩ := he
        obtain ⟨i, hi⟩ := List.getElem?_of_mem hp
        by_cases hg : ∃ (j : Nat) (q : Prog Reply), v.calls[j]? = some q ∧ q.ended = false ∧ v.grants j q = true
        · exact .inr (.inr hg)
        · exfalso
          obtain ⟨js, hne, hj⟩ := h.1.progress hi (by simpa using hn) hg
          obtain ⟨j, hjm⟩ := List.exists_mem_of_ne_nil js hne
          obtain ⟨c, q, hc, hq, h3⟩ := hj j hjm
          obtain ⟨p', h4, h5⟩ := h.2 j c hc (h3.imp (·.1) (·.1))
          rw [hq] at h4
          cases h4
          have h6 : ∀ y, q.needs ≠ some y := by
            intro y hy
            cases q with
            | step x k => cases h5
            | _ => cases hy
          rcases h3 with ⟨_, a, _, h7⟩ | ⟨_, l, r, _, h7, _⟩
          · exact h6 _ h7
          · exact h6 _ h7) (w.runTroubled ((List.range N).map f))
    ⟨h.runTroubled _, fun i c hc hk => hN i (List.getElem?_eq_some_iff.mp hc).1 c hc hk⟩ (fun n => f (N + n))
    (by
      rw [Flight.runTroubled_length]
      intro i hi n
      obtain ⟨m, h1, h2⟩ := hf i hi (N + n)
      exact ⟨m - N, by omega, by rw [show N + (m - N) = m by omega]; exact h2⟩)
  refine ⟨N + n, fun i p hp => ?_⟩
  rcases replies_runTroubled (D := fun _ => False) _ (fun i p hp => .inl (hr p (List.mem_of_getElem? hp))) i p hp with h1 | h1 | h1
  · rw [List.range_add, List.map_append, Flight.runTroubled_append, List.map_map] at hp
    rcases hn with hn | hn
    · exact .inl (h1.result (hn p (List.mem_of_getElem? hp)))
    · exact hn.elim
  · exact h1.elim
  · exact .inr h1

end Hyperbee
