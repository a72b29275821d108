import Verif.Proof.Fault
/-!
# Calls that wait for locks

A run in which steps are granted only when the locks are free is one of the interleavings of the
steps.  Calls that ask for locks only while they hold none do not wait for each other for ever.
-/

namespace Hyperbee

/-- What a poll does. -/
theorem Flight.poll_cases (w : Flight α) (i : Nat) :
    (∃ (β : Type) (x : Atom β) (k : Except Err β → Prog α), w.calls[i]? = some (.step x k) ∧ w.grants i (.step x k) = true ∧
      w.poll i = ⟨w.calls.set i (k (x.run w.st).1), (x.run w.st).2, w.queue.filter (· != i)⟩) ∨
    (∃ (β : Type) (x : Atom β) (k : Except Err β → Prog α), w.calls[i]? = some (.step x k) ∧ w.grants i (.step x k) = false ∧
      i ∉ w.queue ∧ w.poll i = { w with queue := w.queue ++ [i] }) ∨
    (w.poll i = w ∧ ∀ p, w.calls[i]? = some p → p.ended = true ∨ w.grants i p = false) := by
  unfold Flight.poll
  split
  · rename_i β x k hp
    by_cases hg : w.grants i (.step x k) = true
    · exact .inl ⟨β, x, k, hp, hg, if_pos hg⟩
    · rw [if_neg hg]
      rw [Bool.not_eq_true] at hg
      by_cases hq : i ∈ w.queue
      · rw [if_pos hq]
        exact .inr (.inr ⟨rfl, fun p h => by rw [hp] at h; cases h; exact .inr hg⟩)
      · exact .inr (.inl ⟨β, x, k, hp, hg, hq, if_neg hq⟩)
  · rename_i hp
    refine .inr (.inr ⟨rfl, fun p h => .inl ?_⟩)
    cases p with
    | step x k => exact absurd h (hp _ _ _)
    | _ => rfl

theorem Flight.run_interleave (sched : List Nat) (w : Flight α) :
    ∃ turns, turns.Sublist sched ∧ (w.run sched).calls = (Prog.interleave turns w.calls w.st).1 ∧
      (w.run sched).st = (Prog.interleave turns w.calls w.st).2 := by
  induction sched generalizing w with
  | nil => exact ⟨[], .slnil, rfl, rfl⟩
  | cons i is ih =>
    rw [show w.run (i :: is) = (w.poll i).run is from rfl]
    obtain ⟨turns, h1, h2, h3⟩ := ih (w.poll i)
    rcases w.poll_cases i with ⟨β, x, k, hp, _, e⟩ | ⟨β, x, k, _, _, _, e⟩ | ⟨e, _⟩
    · refine ⟨i :: turns, h1.cons_cons _, ?_⟩
      rw [e] at h2 h3 ⊢
      unfold Prog.interleave
      rw [hp]
      exact ⟨h2, h3⟩
    · rw [e] at h2 h3 ⊢
      exact ⟨turns, h1.cons _, h2, h3⟩
    · rw [e] at h2 h3 ⊢
      exact ⟨turns, h1.cons _, h2, h3⟩

/-! ## Being stuck -/

/-- No call that has not ended is granted its next step. -/
def Flight.Stuck (w : Flight α) : Prop :=
  ∀ i p, w.calls[i]? = some p → p.ended = false → w.grants i p = false

theorem takeWhile_ne_append (q : List Nat) (i j : Nat) :
    ∀ k ∈ q.takeWhile (· != i), k ∈ (q ++ [j]).takeWhile (· != i) := by
  induction q with
  | nil => simp
  | cons a q ih =>
    intro k hk
    rw [List.takeWhile_cons] at hk
    rw [List.cons_append, List.takeWhile_cons]
    split at hk
    · rename_i h
      rw [if_pos h]
      rcases List.mem_cons.mp hk with rfl | hk
      · exact List.mem_cons_self
      · exact List.mem_cons_of_mem _ (ih k hk)
    · cases hk

theorem Flight.first_append {calls : List (Prog α)} {q : List Nat} {i j : Nat} {a : Addr}
    (h : Flight.first calls q i a = false) : Flight.first calls (q ++ [j]) i a = false := by
  unfold Flight.first at h ⊢
  rw [List.all_eq_false] at h ⊢
  obtain ⟨k, h1, h2⟩ := h
  exact ⟨k, takeWhile_ne_append q i j k h1, h2⟩

theorem Flight.Stuck.poll {w : Flight α} (h : w.Stuck) (i : Nat) :
    (w.poll i).Stuck ∧ (w.poll i).calls = w.calls ∧ (w.poll i).st = w.st := by
  rcases w.poll_cases i with ⟨β, x, k, hp, hg, e⟩ | ⟨β, x, k, hp, hg, hq, e⟩ | ⟨e, _⟩
  · rw [h i _ hp rfl] at hg
    cases hg
  · rw [e]
    refine ⟨fun j p hj hn => ?_, rfl, rfl⟩
    have := h j p hj hn
    unfold Flight.grants at this ⊢
    cases hneed : p.needs with
    | none => rw [hneed] at this; cases this
    | some x =>
      obtain ⟨a, m⟩ := x
      rw [hneed] at this
      simp only [Bool.and_eq_false_iff] at this ⊢
      exact this.imp id Flight.first_append
  · rw [e]
    exact ⟨h, rfl, rfl⟩

theorem Flight.Stuck.run {w : Flight α} (h : w.Stuck) (sched : List Nat) :
    (w.run sched).Stuck ∧ (w.run sched).calls = w.calls ∧ (w.run sched).st = w.st := by
  induction sched generalizing w with
  | nil => exact ⟨h, rfl, rfl⟩
  | cons i is ih =>
    obtain ⟨h1, h2, h3⟩ := h.poll i
    obtain ⟨h4, h5, h6⟩ := ih h1
    exact ⟨h4, h5.trans h2, h6.trans h3⟩

theorem Flight.stuck_of {w : Flight α} (h : (List.range w.calls.length).all (fun i =>
    match w.calls[i]? with
    | some p => p.ended || !w.grants i p
    | none => true) = true) : w.Stuck := by
  intro i p hp hn
  rw [List.all_eq_true] at h
  have := h i (List.mem_range.mpr (List.getElem?_eq_some_iff.mp hp).1)
  rw [hp] at this
  simpa [hn] using this

/-! ## Not being stuck -/

/-- If somebody asks for a lock of `b`, nobody holds one and everybody who has not ended asks for a
lock, then somebody is granted theirs. -/
theorem Flight.grants_free {w : Flight α} {b : Addr}
    (hf : ∀ m, Flight.free w.calls b m = true) {i : Nat} {p : Prog α} {m : Mode}
    (hi : w.calls[i]? = some p) (hn : p.needs = some (b, m)) :
    ∃ j q, w.calls[j]? = some q ∧ q.ended = false ∧ w.grants j q = true := by
  have hne : ∀ {q : Prog α} {y}, q.needs = some y → q.ended = false := by
    intro q y h
    cases q <;> first | rfl | cases h
  by_cases h : ∃ j ∈ w.queue, ∃ q m', w.calls[j]? = some q ∧ q.needs = some (b, m')
  · -- the first in the queue
    obtain ⟨pre, j, suf, hw, ⟨q, m', hq, hm⟩, hpre⟩ : ∃ pre j suf, w.queue = pre ++ j :: suf ∧
        (∃ q m', w.calls[j]? = some q ∧ q.needs = some (b, m')) ∧
        ∀ l ∈ pre, ¬ ∃ q m', w.calls[l]? = some q ∧ q.needs = some (b, m') := by
      generalize w.queue = qs at h
      clear hf hi hn
      induction qs with
      | nil => obtain ⟨_, h, _⟩ := h; cases h
      | cons a qs ih =>
        by_cases ha : ∃ q m', w.calls[a]? = some q ∧ q.needs = some (b, m')
        · exact ⟨[], a, qs, rfl, ha, by simp⟩
        · obtain ⟨j, hj, hx⟩ := h
          rcases List.mem_cons.mp hj with rfl | hj
          · exact absurd hx ha
          · obtain ⟨pre, l, suf, e, h1, h2⟩ := ih ⟨j, hj, hx⟩
            refine ⟨a :: pre, l, suf, by rw [e]; rfl, h1, fun x hx => ?_⟩
            rcases List.mem_cons.mp hx with rfl | hx
            · exact ha
            · exact h2 x hx
    refine ⟨j, q, hq, hne hm, ?_⟩
    unfold Flight.grants
    rw [hm]
    simp only [hf, Bool.true_and]
    unfold Flight.first
    rw [List.all_eq_true]
    intro l hl
    have hlp : l ∈ pre := by
      rw [hw] at hl
      clear hw hpre
      induction pre with
      | nil => simp at hl
      | cons a pre ih =>
        rw [List.cons_append, List.takeWhile_cons] at hl
        split at hl
        · rcases List.mem_cons.mp hl with rfl | hl
          · exact List.mem_cons_self
          · exact List.mem_cons_of_mem _ (ih hl)
        · cases hl
    have := hpre l hlp
    split
    · rename_i q' hq'
      split
      · rename_i c m'' hc
        rw [bne_iff_ne]
        rintro rfl
        exact this ⟨q', m'', hq', hc⟩
      · rfl
    · rfl
  · refine ⟨i, p, hi, hne hn, ?_⟩
    unfold Flight.grants
    rw [hn]
    simp only [hf, Bool.true_and]
    unfold Flight.first
    rw [List.all_eq_true]
    intro l hl
    have hlq : l ∈ w.queue := (List.takeWhile_sublist _).subset hl
    split
    · rename_i q' hq'
      split
      · rename_i c m'' hc
        rw [bne_iff_ne]
        rintro rfl
        exact h ⟨l, hlq, q', m'', hq', hc⟩
      · rfl
    · rfl

/-- Asks for locks only while holding none. -/
def Simple (α : Type) : Prog α → Prop
  | .pure _ => True
  | .throw _ => True
  | .step x k => (x.needs = none ∨ x.holds = []) ∧ ∀ r, Simple α (k r)

/-- Asks for locks only while holding none, except when moving children between two nodes. -/
def Mild (α : Type) : Prog α → Prop
  | .pure _ => True
  | .throw _ => True
  | .step x k => (x.needs = none ∨ x.holds = [] ∨
      ∃ l r, x.holds = [(l, .children)] ∧ x.needs = some (r, .children)) ∧ ∀ r, Mild α (k r)

/-- The call asks for a lock that it holds. -/
def Prog.SelfLocked (p : Prog α) : Prop := ∃ a m m', p.needs = some (a, m) ∧ (a, m') ∈ p.holds

theorem Simple.mild {p : Prog α} (h : Simple α p) : Mild α p := by
  induction p with
  | pure a => trivial
  | throw e => trivial
  | step x k ih => exact ⟨h.1.imp id .inl, fun r => ih r (h.2 r)⟩

theorem Flight.progress {w : Flight α} {d : Nat} (hs : ∀ i p, i ≠ d → w.calls[i]? = some p → Simple α p)
    (hd : ∀ p, w.calls[d]? = some p → Mild α p) {i : Nat} {p : Prog α} (hi : w.calls[i]? = some p)
    (hn : p.ended = false) :
    (∃ j q, w.calls[j]? = some q ∧ q.ended = false ∧ w.grants j q = true) ∨
    ∃ q, w.calls[d]? = some q ∧ q.SelfLocked := by
  by_cases h : ∃ (j : Nat) (q : Prog α), w.calls[j]? = some q ∧ q.ended = false ∧ q.needs = none
  · obtain ⟨j, q, h1, h2, h3⟩ := h
    refine .inl ⟨j, q, h1, h2, ?_⟩
    unfold Flight.grants
    rw [h3]
  · have hneed : ∀ (j : Nat) (q : Prog α), w.calls[j]? = some q → q.ended = false → ∃ a m, q.needs = some (a, m) := by
      intro j q h1 h2
      cases h3 : q.needs with
      | none => exact absurd ⟨j, q, h1, h2, h3⟩ h
      | some x => exact ⟨x.1, x.2, rfl⟩
    have hold : ∀ (j : Nat) (q : Prog α), w.calls[j]? = some q → j ≠ d → q.holds = [] := by
      intro j q h1 h2
      have h3 := hs j q h2 h1
      cases q with
      | pure a => rfl
      | throw e => rfl
      | step x k =>
        obtain ⟨a, m, ha⟩ := hneed j _ h1 rfl
        rcases h3.1 with h | h
        · rw [show (Prog.step x k).needs = x.needs from rfl, h] at ha
          cases ha
        · exact h
    -- nobody holds a lock of a node that the call `d` does not hold
    have hfree : ∀ b, (∀ q, w.calls[d]? = some q → ∀ g ∈ q.holds, g.1 ≠ b) → ∀ m, Flight.free w.calls b m = true := by
      intro b hb m
      unfold Flight.free
      rw [List.all_eq_true]
      intro q hq
      rw [List.all_eq_true]
      intro g hg
      obtain ⟨j, hj⟩ := List.getElem?_of_mem hq
      by_cases hjd : j = d
      · subst hjd
        have := hb q hj g hg
        simp [this]
      · rw [hold j q hj hjd] at hg
        cases hg
    by_cases hdh : ∃ q, w.calls[d]? = some q ∧ q.holds ≠ []
    · obtain ⟨q, h1, h2⟩ := hdh
      have h3 := hd q h1
      cases q with
      | pure a => exact absurd rfl h2
      | throw e => exact absurd rfl h2
      | step x k =>
        obtain ⟨a, m, ha⟩ := hneed d _ h1 rfl
        rcases h3.1 with h | h | ⟨l, r, h, hr⟩
        · rw [show (Prog.step x k).needs = x.needs from rfl, h] at ha
          cases ha
        · exact absurd h h2
        · by_cases hlr : l = r
          · subst hlr
            exact .inr ⟨_, h1, l, _, _, hr, by rw [show (Prog.step x k).holds = x.holds from rfl, h]; exact List.mem_cons_self⟩
          · refine .inl (Flight.grants_free (hfree r fun q hq g hg => ?_) h1 hr)
            rw [h1] at hq
            cases hq
            rw [show (Prog.step x k).holds = x.holds from rfl, h] at hg
            rcases List.mem_cons.mp hg with rfl | hg
            · exact hlr
            · cases hg
    · obtain ⟨a, m, ha⟩ := hneed i p hi hn
      refine .inl (Flight.grants_free (hfree a fun q hq g hg => ?_) hi ha)
      exact absurd ⟨q, hq, List.ne_nil_of_mem hg⟩ hdh

/-! ## Calls that ask for locks only while holding none -/

theorem Simple.bind {p : Prog α} {f : α → Prog β} (h : Simple α p) (hf : ∀ a, Simple β (f a)) : Simple β (p >>= f) := by
  induction p with
  | pure a => exact hf a
  | throw e => trivial
  | step x k ih => exact ⟨h.1, fun r => ih r (h.2 r)⟩

theorem simple_lift (x : Atom β) (h : x.needs = none ∨ x.holds = []) : Simple β (Prog.lift x) :=
  ⟨h, fun r => by cases r <;> trivial⟩

/-- Asks for no lock. -/
def NeedsNone : Prog α → Prop
  | .pure _ => True
  | .throw _ => True
  | .step x k => x.needs = none ∧ ∀ r, NeedsNone (k r)

theorem NeedsNone.bind {p : Prog α} {f : α → Prog β} (h : NeedsNone p) (hf : ∀ a, NeedsNone (f a)) :
    NeedsNone (p >>= f) := by
  induction p with
  | pure a => exact hf a
  | throw e => trivial
  | step x k ih => exact ⟨h.1, fun r => ih r (h.2 r)⟩

theorem needsNone_blocksGet (q : Nat) : NeedsNone (Prog.blocksGet q) := by
  have hl : ∀ {β : Type} (x : Atom β), x.needs = none → NeedsNone (Prog.lift x) :=
    fun x h => ⟨h, fun r => by cases r <;> trivial⟩
  unfold Prog.blocksGet
  refine NeedsNone.bind (hl _ rfl) fun o => ?_
  cases o with
  | some b => trivial
  | none =>
    refine NeedsNone.bind (hl _ rfl) fun o => ?_
    cases o with
    | none => trivial
    | some e => exact NeedsNone.bind (hl _ rfl) fun _ => trivial

theorem needsNone_pure (a : α) : NeedsNone (Pure.pure a : Prog α) := trivial

theorem needsNone_orPanic (site : String) (o : Option α) : NeedsNone (Prog.orPanic site o) := by cases o <;> trivial

theorem NeedsNone.under {p : Prog α} (h : NeedsNone p) (a : Addr) (m : Mode) : Simple α (p.under a m) := by
  induction p with
  | pure a => trivial
  | throw e => trivial
  | step x k ih => exact ⟨.inl h.1, fun r => ih r (h.2 r)⟩

theorem NeedsNone.simple {p : Prog α} (h : NeedsNone p) : Simple α p := by
  induction p with
  | pure a => trivial
  | throw e => trivial
  | step x k ih => exact ⟨.inl h.1, fun r => ih r (h.2 r)⟩

theorem simple_acts : PActs Simple where
  pure _ := trivial
  throw _ := trivial
  bind := Simple.bind
  readNode _ := simple_lift _ (.inr rfl)
  edit _ _ _ := simple_lift _ (.inr rfl)
  getChild _ _ := Simple.bind (simple_lift _ (.inr rfl)) fun _ => NeedsNone.under
    (NeedsNone.bind (needsNone_orPanic _ _) fun _ => NeedsNone.bind (needsNone_blocksGet _) fun _ => needsNone_orPanic _ _)
    _ _
  getKeyValue _ _ := Simple.bind (simple_lift _ (.inr rfl)) fun _ => NeedsNone.under
    (NeedsNone.bind (needsNone_orPanic _ _) fun _ => NeedsNone.bind (needsNone_blocksGet _) fun _ =>
      NeedsNone.bind (needsNone_blocksGet _) fun _ => needsNone_pure _) _ _
  alloc _ := simple_lift _ (.inl rfl)
  version := simple_lift _ (.inl rfl)
  descentFuel := simple_lift _ (.inl rfl)
  blocksGet _ := (needsNone_blocksGet _).simple

theorem Mild.bind {p : Prog α} {f : α → Prog β} (h : Mild α p) (hf : ∀ a, Mild β (f a)) : Mild β (p >>= f) := by
  induction p with
  | pure a => exact hf a
  | throw e => trivial
  | step x k ih => exact ⟨h.1, fun r => ih r (h.2 r)⟩

theorem mild_acts : DActs Mild where
  pure _ := trivial
  throw _ := trivial
  bind := Mild.bind
  readNode _ := (simple_acts.readNode _).mild
  edit _ _ _ := (simple_acts.edit _ _ _).mild
  getChild _ _ := (simple_acts.getChild _ _).mild
  getKeyValue _ _ := (simple_acts.getKeyValue _ _).mild
  alloc _ := (simple_acts.alloc _).mild
  version := simple_acts.version.mild
  descentFuel := simple_acts.descentFuel.mild
  blocksGet _ := (simple_acts.blocksGet _).mild
  moveChildren l r n := Mild.bind (simple_lift _ (.inr rfl)).mild fun _ =>
    ⟨.inr (.inr ⟨l, r, rfl, rfl⟩), fun r => by cases r <;> trivial⟩

section
variable {P : ∀ α : Type, Prog α → Prop} (h : PActs P) (ha : ∀ b, P _ (Prog.coreAppend b))
include h ha

theorem PActs.createHeader_ (m : Option Metadata) : P _ (Prog.createHeader m) := by
  unfold Prog.createHeader; pacts h [ha _]

theorem PActs.commitPrepared_ (p : Prepared α) : P _ (Prog.commitPrepared p) := by
  cases p with
  | done a => exact h.pure _
  | commit ch a =>
    unfold Prog.commitPrepared Prog.addChanges
    pacts h [ha _, h.reorderNodes_ _ _, h.readNodes_ _]

theorem PActs.putCas_ (he : P _ Prog.ensureHeader) (k : Bytes) (v : Option Bytes)
    (cas : Option KeyValueData → KeyValueData → Bool) : P _ (Prog.putCompareAndSwap k v cas) := by
  have hr : P _ (Prog.getRoot true) := by
    unfold Prog.getRoot; pacts h [he, h.getTreeNode_ _ _]
  unfold Prog.putCompareAndSwap Prog.putPrepare
  pacts h [hr, h.nearestNode_ _ _, h.getKeyValue_ _ _, h.putLoop_ _ _ _ _ _, h.commitPrepared_ ha _]

theorem PActs.put_ (he : P _ Prog.ensureHeader) (k : Bytes) (v : Option Bytes) : P _ (Prog.put k v) := by
  unfold Prog.put; pacts h [h.putCas_ ha he _ _ _]

end

section
variable {P : ∀ α : Type, Prog α → Prop} (h : DActs P) (ha : ∀ b, P _ (Prog.coreAppend b))
include h ha

theorem DActs.delCas_ (k : Bytes) (cas : KeyValueData → Bool) : P _ (Prog.delCompareAndSwap k cas) := by
  unfold Prog.delCompareAndSwap; pacts h [h.delPrepare_ _ _, h.toPActs.commitPrepared_ ha _]

theorem DActs.del_ (k : Bytes) : P _ (Prog.del k) := by
  unfold Prog.del; pacts h [h.delCas_ ha _ _]

end

theorem Simple.catchExists {p : Prog Nat} (h : Simple _ p) : Simple _ (Prog.catchExists p) := by
  induction p with
  | pure a => trivial
  | throw e => cases e <;> trivial
  | step x k ih => exact ⟨h.1, fun r => ih r (h.2 r)⟩

theorem Simple.replyOf {p : Prog α} (f : α → Reply) (h : Simple _ p) : Simple _ (Prog.replyOf f p) := by
  induction p with
  | pure a => trivial
  | throw e => trivial
  | step x k ih => exact ⟨h.1, fun r => ih r (h.2 r)⟩

theorem Mild.replyOf {p : Prog α} (f : α → Reply) (h : Mild _ p) : Mild _ (Prog.replyOf f p) := by
  induction p with
  | pure a => trivial
  | throw e => trivial
  | step x k ih => exact ⟨h.1, fun r => ih r (h.2 r)⟩

theorem simple_append (b : Bytes) : Simple _ (Prog.coreAppend b) := simple_lift _ (.inl rfl)

theorem simple_ensureHeader : Simple _ Prog.ensureHeader :=
  (simple_acts.createHeader_ simple_append none).catchExists

/-! ## Everything comes to an end -/

/-- One of the programs has taken a step. -/
def Shrinks (ps' ps : List (Prog α)) : Prop :=
  ∃ (i : Nat) (β : Type) (x : Atom β) (k : Except Err β → Prog α) (r : Except Err β),
    ps[i]? = some (.step x k) ∧ ps' = ps.set i (k r)

theorem acc_shrinks (ps : List (Prog α)) : Acc Shrinks ps := by
  induction ps with
  | nil => exact ⟨_, fun _ ⟨i, β, x, k, r, h, _⟩ => by simp at h⟩
  | cons p ps ih =>
    induction p generalizing ps with
    | pure a =>
      induction ih with
      | intro ps _ ih =>
        refine ⟨_, fun ps' ⟨i, β, x, k, r, h, e⟩ => ?_⟩
        cases i with
        | zero => cases h
        | succ i => rw [e]; exact ih _ ⟨i, β, x, k, r, h, rfl⟩
    | throw a =>
      induction ih with
      | intro ps _ ih =>
        refine ⟨_, fun ps' ⟨i, β, x, k, r, h, e⟩ => ?_⟩
        cases i with
        | zero => cases h
        | succ i => rw [e]; exact ih _ ⟨i, β, x, k, r, h, rfl⟩
    | step x k ihk =>
      induction ih with
      | intro ps hps ih =>
        refine ⟨_, fun ps' ⟨i, β, x', k', r, h, e⟩ => ?_⟩
        cases i with
        | zero => cases h; rw [e]; exact ihk r ps ⟨ps, hps⟩
        | succ i => rw [e]; exact ih _ ⟨i, β, x', k', r, h, rfl⟩

theorem Flight.poll_length (w : Flight α) (i : Nat) : (w.poll i).calls.length = w.calls.length := by
  rcases w.poll_cases i with ⟨β, x, k, _, _, e⟩ | ⟨β, x, k, _, _, _, e⟩ | ⟨e, _⟩ <;> rw [e]
  simp

theorem Flight.run_length (sched : List Nat) (w : Flight α) : (w.run sched).calls.length = w.calls.length := by
  induction sched generalizing w with
  | nil => rfl
  | cons i is ih => exact (ih (w.poll i)).trans (w.poll_length i)

/-- How many calls are not in the queue. -/
def Flight.out (w : Flight α) : Nat := ((List.range w.calls.length).filter (· ∉ w.queue)).length

theorem filter_length_lt {p q : Nat → Bool} (l : List Nat) (h : ∀ x, q x = true → p x = true) {a : Nat} (ha : a ∈ l)
    (hp : p a = true) (hq : q a = false) : (l.filter q).length < (l.filter p).length := by
  have hle : ∀ l : List Nat, (l.filter q).length ≤ (l.filter p).length := by
    intro l
    induction l with
    | nil => exact Nat.le_refl _
    | cons b l ih =>
      have := h b
      cases hb : q b with
      | true => simp [hb, this hb]; exact ih
      | false => cases hc : p b <;> simp [hb, hc] <;> omega
  induction l with
  | nil => cases ha
  | cons b l ih =>
    have h0 := hle l
    rcases List.mem_cons.mp ha with rfl | ha
    · simp [hp, hq]; omega
    · have h1 := ih ha
      have := h b
      cases hb : q b with
      | true => simp [hb, this hb]; exact h1
      | false => cases hc : p b <;> simp [hb, hc] <;> omega

/-- If in every state that can come about somebody is granted a step, unless all have ended or `G`
holds, then in a run in which everybody is polled again and again, all end or `G` comes to hold. -/
theorem Flight.settles {Inv G : Flight α → Prop} (hp : ∀ w i, Inv w → Inv (w.poll i))
    (hg : ∀ w, Inv w → (∀ p ∈ w.calls, p.ended = true) ∨ G w ∨
      ∃ j q, w.calls[j]? = some q ∧ q.ended = false ∧ w.grants j q = true) (w : Flight α) (hw : Inv w)
    (f : Nat → Nat) (hf : ∀ i < w.calls.length, ∀ n, ∃ m, n ≤ m ∧ f m = i) :
    ∃ n, (∀ p ∈ (w.run ((List.range n).map f)).calls, p.ended = true) ∨ G (w.run ((List.range n).map f)) := by
  obtain ⟨ps, hps⟩ : ∃ ps, ps = w.calls := ⟨_, rfl⟩
  have hacc := acc_shrinks ps
  induction hacc generalizing w f with
  | intro ps _ ih =>
    subst hps
    obtain ⟨c, hc⟩ : ∃ c, c = w.out := ⟨_, rfl⟩
    induction c using Nat.strongRecOn generalizing w f with
    | ind c ihc =>
      subst hc
      rcases hg w hw with h | h | ⟨j, q, hj, hq, hgr⟩
      · exact ⟨0, .inl h⟩
      · exact ⟨0, .inr h⟩
      · obtain ⟨m, _, hm⟩ := hf j (List.getElem?_eq_some_iff.mp hj).1 0
        -- until time `m` something happens
        have key : ∀ m (f : Nat → Nat), f m = j → (∀ i < w.calls.length, ∀ n, ∃ m, n ≤ m ∧ f m = i) →
            ∃ n, (∀ p ∈ (w.run ((List.range n).map f)).calls, p.ended = true) ∨ G (w.run ((List.range n).map f)) := by
          intro m
          induction m with
          | zero =>
            intro f hm hf
            have hf' : ∀ i < w.calls.length, ∀ n, ∃ m, n ≤ m ∧ f (m + 1) = i := fun i hi n => by
              obtain ⟨m, h1, h2⟩ := hf i hi (n + 1)
              exact ⟨m - 1, by omega, by rw [Nat.sub_add_cancel (by omega)]; exact h2⟩
            rcases w.poll_cases j with ⟨β, x, k, hx, _, e⟩ | ⟨β, x, k, hx, hng, _, e⟩ | ⟨e, hn⟩
            · have hl := w.poll_length j
              obtain ⟨n, hn⟩ := ih (w.poll j).calls ⟨j, β, x, k, _, hx, by rw [e]⟩ (w.poll j) (hp w j hw)
                (fun n => f (n + 1)) (by rw [hl]; exact hf') rfl
              refine ⟨n + 1, ?_⟩
              rw [List.range_succ_eq_map, List.map_cons, List.map_map, hm]
              exact hn
            · rw [hj] at hx
              cases hx
              rw [hgr] at hng
              cases hng
            · rcases hn q hj with h | h
              · rw [h] at hq; cases hq
              · rw [h] at hgr; cases hgr
          | succ m ihm =>
            intro f hm hf
            have hf' : ∀ i < w.calls.length, ∀ n, ∃ m, n ≤ m ∧ f (m + 1) = i := fun i hi n => by
              obtain ⟨m, h1, h2⟩ := hf i hi (n + 1)
              exact ⟨m - 1, by omega, by rw [Nat.sub_add_cancel (by omega)]; exact h2⟩
            have hl := w.poll_length (f 0)
            suffices hs : ∃ n, (∀ p ∈ ((w.poll (f 0)).run ((List.range n).map fun n => f (n + 1))).calls, p.ended = true) ∨
                G ((w.poll (f 0)).run ((List.range n).map fun n => f (n + 1))) by
              obtain ⟨n, hn⟩ := hs
              refine ⟨n + 1, ?_⟩
              rw [List.range_succ_eq_map, List.map_cons, List.map_map]
              exact hn
            rcases w.poll_cases (f 0) with ⟨β, x, k, hx, _, e⟩ | ⟨β, x, k, hx, hng, hnq, e⟩ | ⟨e, hn⟩
            · exact ih (w.poll (f 0)).calls ⟨f 0, β, x, k, _, hx, by rw [e]⟩ (w.poll (f 0)) (hp w _ hw)
                (fun n => f (n + 1)) (by rw [hl]; exact hf') rfl
            · refine ihc (w.poll (f 0)).out ?_ (w.poll (f 0)) (hp w _ hw) (fun n => f (n + 1)) (by rw [hl]; exact hf')
                (fun y _ => acc_shrinks y) ?_ rfl
              · rw [e]
                unfold Flight.out
                refine filter_length_lt _ (fun x hx => ?_) (a := f 0)
                  (List.mem_range.mpr (List.getElem?_eq_some_iff.mp hx).1) (by simpa using hnq) (by simp)
                simp only [List.mem_append, decide_eq_true_eq, not_or] at hx ⊢
                exact hx.1
              · intro ps' hps' w' hw' f' hf' e'
                rw [e] at hps'
                exact ih ps' hps' w' hw' f' hf' e'
            · rw [e]
              exact ihm (fun n => f (n + 1)) hm hf'
        exact key m f hm hf

/-! ## Which calls are of which kind -/

/-- Traversals. -/
def Cmd.walks : Cmd → Bool
  | .traverse _ _ => true
  | _ => false

/-- `del` and `del_compare_and_swap`. -/
def Cmd.deletes : Cmd → Bool
  | .del _ => true
  | .delCas _ _ => true
  | _ => false

theorem simple_exec (c : Cmd) (h1 : c.walks = false) (h2 : c.deletes = false) : Simple _ (Prog.exec c) := by
  cases c with
  | version => exact simple_acts.version.replyOf _
  | get k => exact (simple_acts.get_ k).replyOf _
  | put k v => exact (simple_acts.put_ simple_append simple_ensureHeader k v).replyOf _
  | putCas k v cas => exact (simple_acts.putCas_ simple_append simple_ensureHeader k v cas).replyOf _
  | createHeader m => exact (simple_acts.createHeader_ simple_append m).replyOf _
  | reopen => trivial
  | del k => cases h2
  | delCas k cas => cases h2
  | traverse b rs => cases h1

theorem mild_exec (c : Cmd) (h1 : c.walks = false) : Mild _ (Prog.exec c) := by
  cases c with
  | del k => exact (mild_acts.del_ (fun b => (simple_append b).mild) k).replyOf _
  | delCas k cas => exact (mild_acts.delCas_ (fun b => (simple_append b).mild) k cas).replyOf _
  | traverse b rs => cases h1
  | _ => exact (simple_exec _ rfl rfl).mild

/-- All calls but number `d` are simple, and that one is mild, and they reply. -/
structure Orderly (d : Nat) (w : Flight α) : Prop where
  simple : ∀ i p, i ≠ d → w.calls[i]? = some p → Simple α p
  mild : ∀ p, w.calls[d]? = some p → Mild α p
  replies : ∀ p ∈ w.calls, Replies p

theorem Orderly.poll {d : Nat} {w : Flight α} (h : Orderly d w) (i : Nat) : Orderly d (w.poll i) := by
  rcases w.poll_cases i with ⟨β, x, k, hx, _, e⟩ | ⟨β, x, k, _, _, _, e⟩ | ⟨e, _⟩
  · rw [e]
    refine ⟨fun j p hj hp => ?_, fun p hp => ?_, fun p hp => ?_⟩
    · rw [List.getElem?_set] at hp
      split at hp
      · rename_i hij
        subst hij
        split at hp
        · cases hp; exact (h.simple i _ hj hx).2 _
        · cases hp
      · exact h.simple j p hj hp
    · rw [List.getElem?_set] at hp
      split at hp
      · rename_i hij
        subst hij
        split at hp
        · cases hp; exact (h.mild _ hx).2 _
        · cases hp
      · exact h.mild p hp
    · rcases List.mem_or_eq_of_mem_set hp with hp | rfl
      · exact h.replies p hp
      · exact h.replies _ (List.mem_of_getElem? hx) _
  · rw [e]; exact ⟨h.simple, h.mild, h.replies⟩
  · rw [e]; exact h

theorem Orderly.run {d : Nat} {w : Flight α} (h : Orderly d w) (sched : List Nat) : Orderly d (w.run sched) := by
  induction sched generalizing w with
  | nil => exact h
  | cons i is ih => exact ih (h.poll i)

theorem orderly_start {cs : List Cmd} {d : Nat} (hw : ∀ c ∈ cs, c.walks = false)
    (hd : ∀ i c, i ≠ d → cs[i]? = some c → c.deletes = false) (s : St) :
    Orderly d (Flight.start (cs.map Prog.exec) s) := by
  refine ⟨fun i p hi hp => ?_, fun p hp => ?_, fun p hp => ?_⟩
  · rw [show (Flight.start (cs.map Prog.exec) s).calls = cs.map Prog.exec from rfl, List.getElem?_map] at hp
    obtain ⟨c, h1, rfl⟩ := Option.map_eq_some_iff.mp hp
    exact simple_exec c (hw c (List.mem_of_getElem? h1)) (hd i c hi h1)
  · rw [show (Flight.start (cs.map Prog.exec) s).calls = cs.map Prog.exec from rfl, List.getElem?_map] at hp
    obtain ⟨c, h1, rfl⟩ := Option.map_eq_some_iff.mp hp
    exact mild_exec c (hw c (List.mem_of_getElem? h1))
  · obtain ⟨c, _, rfl⟩ := List.mem_map.mp hp
    exact replies_exec c

theorem Replies.result {p : Prog α} (h : Replies p) (he : p.ended = true) : ∃ r, p.result = some r := by
  cases p with
  | pure a => exact ⟨a, rfl⟩
  | throw e => exact h.elim
  | step x k => cases he

theorem simple_not_selfLocked {p : Prog α} (h : Simple α p) : ¬ p.SelfLocked := by
  rintro ⟨a, m, m', h1, h2⟩
  cases p with
  | pure a => cases h1
  | throw e => cases h1
  | step x k =>
    rcases h.1 with h | h
    · rw [show (Prog.step x k).needs = x.needs from rfl, h] at h1; cases h1
    · rw [show (Prog.step x k).holds = x.holds from rfl, h] at h2; cases h2

theorem Orderly.settles {d : Nat} {w : Flight α} (h : Orderly d w) (f : Nat → Nat)
    (hf : ∀ i < w.calls.length, ∀ n, ∃ m, n ≤ m ∧ f m = i) :
    ∃ n, (∀ p ∈ (w.run ((List.range n).map f)).calls, ∃ r, p.result = some r) ∨
      ∃ q, (w.run ((List.range n).map f)).calls[d]? = some q ∧ q.SelfLocked := by
  obtain ⟨n, hn⟩ := Flight.settles (Inv := Orderly d) (G := fun w => ∃ q, w.calls[d]? = some q ∧ q.SelfLocked)
    (fun w i h => h.poll i) (fun w h => by
      by_cases he : ∀ p ∈ w.calls, p.ended = true
      · exact .inl he
      · simp only [not_forall] at he
        obtain ⟨p, hp, hn⟩ := he
        obtain ⟨i, hi⟩ := List.getElem?_of_mem hp
        rcases Flight.progress h.simple h.mild hi (by simpa using hn) with h | h
        · exact .inr (.inr h)
        · exact .inr (.inl h)) w h f hf
  refine ⟨n, hn.imp (fun hn p hp => ?_) id⟩
  exact ((h.run _).replies p hp).result (hn p hp)

/-! ## Readers -/

/-- Asks for and holds only read locks. -/
def ReadLocks (α : Type) : Prog α → Prop
  | .pure _ => True
  | .throw _ => True
  | .step x k => (∀ a m, x.needs = some (a, m) → m = .read) ∧ (∀ g ∈ x.holds, g.2 = .read) ∧ ∀ r, ReadLocks α (k r)

theorem ReadLocks.bind {p : Prog α} {f : α → Prog β} (h : ReadLocks α p) (hf : ∀ a, ReadLocks β (f a)) :
    ReadLocks β (p >>= f) := by
  induction p with
  | pure a => exact hf a
  | throw e => trivial
  | step x k ih => exact ⟨h.1, h.2.1, fun r => ih r (h.2.2 r)⟩

theorem ReadLocks.under {p : Prog α} (a : Addr) (h : ReadLocks α p) : ReadLocks α (p.under a .read) := by
  induction p with
  | pure a => trivial
  | throw e => trivial
  | step x k ih =>
    refine ⟨h.1, fun g hg => ?_, fun r => ih r (h.2.2 r)⟩
    rcases List.mem_cons.mp hg with rfl | hg
    · rfl
    · exact h.2.1 g hg

theorem readLocks_lift (x : Atom β) (h1 : x.needs = none ∨ ∃ a, x.needs = some (a, .read)) (h2 : x.holds = []) :
    ReadLocks β (Prog.lift x) := by
  refine ⟨fun a m h => ?_, fun g hg => (by rw [h2] at hg; cases hg), fun r => (by cases r <;> trivial)⟩
  rcases h1 with h1 | ⟨b, h1⟩ <;> rw [h1] at h <;> cases h
  rfl

theorem readLocks_orPanic (site : String) (o : Option α) : ReadLocks α (Prog.orPanic site o) := by cases o <;> trivial

theorem readLocks_blocksGet (q : Nat) : ReadLocks _ (Prog.blocksGet q) := by
  unfold Prog.blocksGet
  refine ReadLocks.bind (readLocks_lift _ (.inl rfl) rfl) fun o => ?_
  cases o with
  | some b => trivial
  | none =>
    refine ReadLocks.bind (readLocks_lift _ (.inl rfl) rfl) fun o => ?_
    cases o with
    | none => trivial
    | some e => exact ReadLocks.bind (readLocks_lift _ (.inl rfl) rfl) fun _ => trivial

theorem readLocks_acts : RActs ReadLocks where
  pure _ := trivial
  throw _ := trivial
  bind := ReadLocks.bind
  readNode a := readLocks_lift _ (.inr ⟨a, rfl⟩) rfl
  getChild a _ := ReadLocks.bind (readLocks_lift _ (.inr ⟨a, rfl⟩) rfl) fun _ => ReadLocks.under _
    (ReadLocks.bind (readLocks_orPanic _ _) fun _ => ReadLocks.bind (readLocks_blocksGet _) fun _ => readLocks_orPanic _ _)
  getKeyValue a _ := ReadLocks.bind (readLocks_lift _ (.inr ⟨a, rfl⟩) rfl) fun _ => ReadLocks.under _
    (ReadLocks.bind (readLocks_orPanic _ _) fun _ => ReadLocks.bind (readLocks_blocksGet _) fun _ =>
      ReadLocks.bind (readLocks_blocksGet _) fun _ => trivial)
  version := readLocks_lift _ (.inl rfl) rfl
  descentFuel := readLocks_lift _ (.inl rfl) rfl
  blocksGet := readLocks_blocksGet

theorem ReadLocks.tryResult {p : Prog α} (h : ReadLocks α p) : ReadLocks _ (Prog.tryResult p) := by
  induction p with
  | pure a => trivial
  | throw e => cases e <;> trivial
  | step x k ih => exact ⟨h.1, h.2.1, fun r => ih r (h.2.2 r)⟩

theorem ReadLocks.replyOf {p : Prog α} (f : α → Reply) (h : ReadLocks α p) : ReadLocks _ (Prog.replyOf f p) := by
  induction p with
  | pure a => trivial
  | throw e => trivial
  | step x k ih => exact ⟨h.1, h.2.1, fun r => ih r (h.2.2 r)⟩

theorem readLocks_looks {c : Cmd} (h : c.looks = true) : ReadLocks _ (Prog.exec c) := by
  cases c with
  | version => exact ReadLocks.replyOf _ readLocks_acts.version
  | get k => exact ReadLocks.replyOf _ (readLocks_acts.get_ k)
  | traverse b rs =>
    exact ReadLocks.replyOf _ (readLocks_acts.traverseSession_ ReadLocks.tryResult
      (fun _ => (readLocks_acts.readNode _).under _) b rs)
  | _ => cases h

theorem readers_granted {w : Flight α} (h : ∀ p ∈ w.calls, ReadLocks α p) (hq : w.queue = []) {i : Nat} {p : Prog α}
    (hp : w.calls[i]? = some p) : w.grants i p = true := by
  unfold Flight.grants
  split
  · rfl
  · rename_i a m hn
    have hm : m = .read := by
      have := h p (List.mem_of_getElem? hp)
      cases p with
      | pure a => cases hn
      | throw e => cases hn
      | step x k => exact this.1 a m hn
    subst hm
    rw [Bool.and_eq_true]
    refine ⟨?_, by rw [hq]; rfl⟩
    unfold Flight.free
    rw [List.all_eq_true]
    intro q hq
    rw [List.all_eq_true]
    intro g hg
    have : g.2 = .read := by
      have := h q hq
      cases q with
      | pure a => cases hg
      | throw e => cases hg
      | step x k => exact this.2.1 g hg
    rw [this]
    simp [Mode.clash]

/-- Readers among themselves are granted every step at once. -/
theorem readers_run (sched : List Nat) (w : Flight α) (h : ∀ p ∈ w.calls, ReadLocks α p) (hq : w.queue = []) :
    (w.run sched).calls = (Prog.interleave sched w.calls w.st).1 ∧
    (w.run sched).st = (Prog.interleave sched w.calls w.st).2 ∧ (w.run sched).queue = [] := by
  induction sched generalizing w with
  | nil => exact ⟨rfl, rfl, hq⟩
  | cons i is ih =>
    rw [show w.run (i :: is) = (w.poll i).run is from rfl]
    unfold Prog.interleave
    rcases w.poll_cases i with ⟨β, x, k, hx, _, e⟩ | ⟨β, x, k, hx, hng, _, e⟩ | ⟨e, hn⟩
    · have hr : ∀ p ∈ (w.poll i).calls, ReadLocks α p := by
        intro p hp
        rw [e] at hp
        rcases List.mem_or_eq_of_mem_set hp with hp | rfl
        · exact h p hp
        · exact (h _ (List.mem_of_getElem? hx)).2.2 _
      have hq' : (w.poll i).queue = [] := by rw [e, hq]; rfl
      obtain ⟨h1, h2, h3⟩ := ih (w.poll i) hr hq'
      rw [hx]
      refine ⟨h1.trans ?_, h2.trans ?_, h3⟩ <;> rw [e] <;> rfl
    · rw [readers_granted h hq hx] at hng
      cases hng
    · rw [e]
      cases hp : w.calls[i]? with
      | none => exact ih w h hq
      | some p =>
        dsimp only
        rcases hn p hp with he | he
        · have : ∀ s, p.next s = (p, s) := by
            intro s
            cases p with
            | step x k => cases he
            | _ => rfl
          have hset : w.calls.set i p = w.calls := by
            obtain ⟨hl, rfl⟩ := List.getElem?_eq_some_iff.mp hp
            exact List.set_getElem_self hl
          rw [this, hset]
          exact ih w h hq
        · rw [readers_granted h hq hp] at he
          cases he

/-! ## One call alone -/

/-- Does not ask for a lock that its own guards keep out; or else fails, and ends as `e`. -/
def Unblocked (e : Prog α) : Prog α → Prop
  | .pure _ => True
  | .throw _ => True
  | .step x k => ((∀ a m, x.needs = some (a, m) → ∀ g ∈ x.holds, g.1 = a → m.clash g.2 = false) ∨
      ((∀ s, x.run s = (.error .diverge, s)) ∧ k (.error .diverge) = e)) ∧ ∀ r, Unblocked e (k r)

theorem Simple.unblocked {p : Prog α} (h : Simple α p) (e : Prog α) : Unblocked e p := by
  induction p with
  | pure a => trivial
  | throw e => trivial
  | step x k ih =>
    refine ⟨.inl fun a m hn g hg => ?_, fun r => ih r (h.2 r)⟩
    rcases h.1 with h | h
    · rw [h] at hn; cases hn
    · rw [h] at hg; cases hg

theorem ReadLocks.unblocked {p : Prog α} (h : ReadLocks α p) (e : Prog α) : Unblocked e p := by
  induction p with
  | pure a => trivial
  | throw e => trivial
  | step x k ih =>
    refine ⟨.inl fun a m hn g hg _ => ?_, fun r => ih r (h.2.2 r)⟩
    rw [h.1 a m hn, h.2.1 g hg]
    rfl

theorem Unblocked.bind {p : Prog α} {f : α → Prog β} (h : Unblocked (.throw .diverge) p)
    (hf : ∀ a, Unblocked (.throw .diverge) (f a)) : Unblocked (.throw .diverge) (p >>= f) := by
  induction p with
  | pure a => exact hf a
  | throw e => trivial
  | step x k ih =>
    refine ⟨h.1.imp id fun h => ⟨h.1, ?_⟩, fun r => ih r (h.2 r)⟩
    show k (.error .diverge) >>= f = _
    rw [h.2]
    rfl

theorem Unblocked.replyOf {p : Prog α} (f : α → Reply) (h : Unblocked (.throw .diverge) p) :
    Unblocked (.pure (.error .diverge)) (Prog.replyOf f p) := by
  induction p with
  | pure a => trivial
  | throw e => trivial
  | step x k ih =>
    refine ⟨h.1.imp id fun h => ⟨h.1, ?_⟩, fun r => ih r (h.2 r)⟩
    show (k (.error .diverge)).replyOf f = _
    rw [h.2]
    rfl

theorem unblocked_acts : DActs fun α p => Unblocked (.throw .diverge) p where
  pure _ := trivial
  throw _ := trivial
  bind := Unblocked.bind
  readNode _ := (simple_acts.readNode _).unblocked _
  edit _ _ _ := (simple_acts.edit _ _ _).unblocked _
  getChild _ _ := (simple_acts.getChild _ _).unblocked _
  getKeyValue _ _ := (simple_acts.getKeyValue _ _).unblocked _
  alloc _ := (simple_acts.alloc _).unblocked _
  version := simple_acts.version.unblocked _
  descentFuel := simple_acts.descentFuel.unblocked _
  blocksGet _ := (simple_acts.blocksGet _).unblocked _
  moveChildren l r n := by
    refine Unblocked.bind ((simple_lift _ (.inr rfl)).unblocked _) fun _ => ⟨?_, fun r => by cases r <;> trivial⟩
    by_cases h : l = r
    · refine .inr ⟨fun s => ?_, rfl⟩
      show Side.moveChildren l r n s = _
      unfold Side.moveChildren
      rw [if_pos h]
      rfl
    · refine .inl fun a m hn g hg hga => ?_
      cases hn
      rcases List.mem_cons.mp hg with rfl | hg
      · exact absurd hga h
      · cases hg

theorem unblocked_exec (c : Cmd) : Unblocked (.pure (.error .diverge)) (Prog.exec c) := by
  by_cases hl : c.looks = true
  · exact (readLocks_looks hl).unblocked _
  · by_cases hd : c.deletes = true
    · cases c with
      | del k => exact (unblocked_acts.del_ (fun b => (simple_append b).unblocked _) k).replyOf _
      | delCas k cas => exact (unblocked_acts.delCas_ (fun b => (simple_append b).unblocked _) k cas).replyOf _
      | _ => cases hd
    · refine (simple_exec c ?_ (by simpa using hd)).unblocked _
      cases c <;> first | rfl | exact absurd rfl hl

theorem alone_run {p : Prog Reply} (h : Unblocked (.pure (.error .diverge)) p) (hr : Replies p) : ∀ s,
    (p.run s).1 ≠ .ok (.error .diverge) →
    ∃ n r, (Flight.start [p] s).run (List.replicate n 0) = Flight.start [.pure r] (p.run s).2 ∧ (p.run s).1 = .ok r := by
  induction p with
  | pure a => exact fun s _ => ⟨0, a, rfl, rfl⟩
  | throw e => exact hr.elim
  | step x k ih =>
    intro s hne
    have hne' : ((k (x.run s).1).run (x.run s).2).1 ≠ .ok (.error .diverge) := hne
    have hg : (Flight.start [Prog.step x k] s).grants 0 (.step x k) = true := by
      rcases h.1 with h1 | ⟨h1, h2⟩
      · unfold Flight.grants
        split
        · rfl
        · rename_i a m hn
          rw [Bool.and_eq_true]
          refine ⟨?_, rfl⟩
          unfold Flight.free
          simp only [Flight.start, List.all_cons, List.all_nil, Bool.and_true, List.all_eq_true]
          intro g hg
          by_cases hga : g.1 = a
          · simp [h1 a m hn g hg hga]
          · simp [hga]
      · rw [h1 s] at hne'
        rw [h2] at hne'
        exact absurd rfl hne'
    have hp : (Flight.start [Prog.step x k] s).poll 0 = Flight.start [k (x.run s).1] (x.run s).2 := by
      unfold Flight.poll
      rw [show (Flight.start [Prog.step x k] s).calls[0]? = some (.step x k) from rfl]
      dsimp only
      rw [if_pos hg]
      rfl
    obtain ⟨n, r, h1, h2⟩ := ih (x.run s).1 (h.2 _) (hr _) (x.run s).2 hne'
    refine ⟨n + 1, r, ?_, h2⟩
    rw [List.replicate_succ, show ∀ (w : Flight Reply) i is, w.run (i :: is) = (w.poll i).run is from fun _ _ _ => rfl, hp]
    exact h1

end Hyperbee
