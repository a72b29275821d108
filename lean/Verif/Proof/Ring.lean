import Verif.Proof.Flight
/-!
# Deletions that wait for each other

When only deletions ask for a lock while they hold another, the only way for calls to wait for ever
is a ring of deletions.
-/

namespace Hyperbee

/-- Each of the calls `js` holds the list of children of a node and asks for that of a node which one
of the calls `js` holds. -/
def Flight.Ring (w : Flight α) (js : List Nat) : Prop :=
  js ≠ [] ∧ ∀ j ∈ js, ∃ q l r, w.calls[j]? = some q ∧ q.holds = [(l, .children)] ∧ q.needs = some (r, .children) ∧
    ∃ j' ∈ js, ∃ q', w.calls[j']? = some q' ∧ q'.holds = [(r, .children)]

/-- All calls are mild, and reply. -/
structure Mannerly (w : Flight α) : Prop where
  mild : ∀ p ∈ w.calls, Mild α p
  replies : ∀ p ∈ w.calls, Replies p

theorem Mannerly.poll {w : Flight α} (h : Mannerly w) (i : Nat) : Mannerly (w.poll i) := by
  rcases w.poll_cases i with ⟨β, x, k, hx, _, e⟩ | ⟨β, x, k, _, _, _, e⟩ | ⟨e, _⟩
  · rw [e]
    have hm := List.mem_of_getElem? hx
    refine ⟨fun p hp => ?_, fun p hp => ?_⟩
    · rcases List.mem_or_eq_of_mem_set hp with hp | rfl
      · exact h.mild p hp
      · exact (h.mild _ hm).2 _
    · rcases List.mem_or_eq_of_mem_set hp with hp | rfl
      · exact h.replies p hp
      · exact h.replies _ hm _
  · rw [e]; exact ⟨h.mild, h.replies⟩
  · rw [e]; exact h

theorem Mannerly.run {w : Flight α} (h : Mannerly w) (sched : List Nat) : Mannerly (w.run sched) := by
  induction sched generalizing w with
  | nil => exact h
  | cons i is ih => exact ih (h.poll i)

theorem mannerly_start {cs : List Cmd} (hw : ∀ c ∈ cs, c.walks = false) (s : St) :
    Mannerly (Flight.start (cs.map Prog.exec) s) := by
  refine ⟨fun p hp => ?_, fun p hp => ?_⟩
  · obtain ⟨c, hc, rfl⟩ := List.mem_map.mp hp
    exact mild_exec c (hw c hc)
  · obtain ⟨c, _, rfl⟩ := List.mem_map.mp hp
    exact replies_exec c

theorem Mannerly.progress {w : Flight α} (hw : Mannerly w) {i : Nat} {p : Prog α} (hi : w.calls[i]? = some p)
    (hn : p.ended = false) :
    (∃ j q, w.calls[j]? = some q ∧ q.ended = false ∧ w.grants j q = true) ∨ ∃ js, w.Ring js := by
  by_cases h : ∃ (j : Nat) (q : Prog α), w.calls[j]? = some q ∧ q.ended = false ∧ w.grants j q = true
  · exact .inl h
  refine .inr ?_
  have hneed : ∀ (j : Nat) (q : Prog α), w.calls[j]? = some q → q.ended = false → ∃ a m, q.needs = some (a, m) := by
    intro j q h1 h2
    cases h3 : q.needs with
    | none => exact absurd ⟨j, q, h1, h2, by unfold Flight.grants; rw [h3]⟩ h
    | some x => exact ⟨x.1, x.2, rfl⟩
  -- who holds a lock asks for another
  have hold : ∀ (j : Nat) (q : Prog α), w.calls[j]? = some q → q.holds ≠ [] →
      ∃ l r, q.holds = [(l, .children)] ∧ q.needs = some (r, .children) := by
    intro j q h1 h2
    have h3 := hw.mild q (List.mem_of_getElem? h1)
    cases q with
    | pure a => exact absurd rfl h2
    | throw e => exact absurd rfl h2
    | step x k =>
      obtain ⟨a, m, ha⟩ := hneed j _ h1 rfl
      rcases h3.1 with h | h | ⟨l, r, h, hr⟩
      · rw [show (Prog.step x k).needs = x.needs from rfl, h] at ha
        cases ha
      · exact absurd h h2
      · exact ⟨l, r, h, hr⟩
  -- what is asked for is held
  have held : ∀ (j : Nat) (q : Prog α), w.calls[j]? = some q → ∀ a m, q.needs = some (a, m) →
      ∃ (j' : Nat) (q' : Prog α), w.calls[j']? = some q' ∧ q'.holds = [(a, .children)] := by
    intro j q h1 a m ha
    by_cases hf : ∀ m, Flight.free w.calls a m = true
    · exact absurd (Flight.grants_free hf h1 ha) h
    · simp only [not_forall] at hf
      obtain ⟨m', hf⟩ := hf
      rw [Bool.not_eq_true] at hf
      unfold Flight.free at hf
      rw [List.all_eq_false] at hf
      obtain ⟨q', hq', hf⟩ := hf
      rw [Bool.not_eq_true, List.all_eq_false] at hf
      obtain ⟨g, hg, hf⟩ := hf
      obtain ⟨j', hj'⟩ := List.getElem?_of_mem hq'
      obtain ⟨l, r, h3, h4⟩ := hold j' q' hj' (List.ne_nil_of_mem hg)
      refine ⟨j', q', hj', ?_⟩
      rw [h3] at hg ⊢
      rcases List.mem_cons.mp hg with rfl | hg
      · simp at hf
        rw [hf.1]
      · cases hg
  let js := (List.range w.calls.length).filter fun j => match w.calls[j]? with
    | some q => !q.holds.isEmpty
    | none => false
  have hjs : ∀ j, j ∈ js ↔ ∃ q, w.calls[j]? = some q ∧ q.holds ≠ [] := by
    intro j
    rw [List.mem_filter, List.mem_range]
    constructor
    · rintro ⟨h1, h2⟩
      rw [List.getElem?_eq_getElem h1] at h2 ⊢
      exact ⟨_, rfl, by simpa using h2⟩
    · rintro ⟨q, h1, h2⟩
      exact ⟨(List.getElem?_eq_some_iff.mp h1).1, by rw [h1]; simpa using h2⟩
  obtain ⟨a, m, ha⟩ := hneed i p hi hn
  obtain ⟨j0, q0, h0, h1⟩ := held i p hi a m ha
  refine ⟨js, List.ne_nil_of_mem ((hjs j0).2 ⟨q0, h0, by rw [h1]; simp⟩), fun j hj => ?_⟩
  obtain ⟨q, h2, h3⟩ := (hjs j).1 hj
  obtain ⟨l, r, h4, h5⟩ := hold j q h2 h3
  obtain ⟨j', q', h6, h7⟩ := held j q h2 r _ h5
  exact ⟨q, l, r, h2, h4, h5, j', (hjs j').2 ⟨q', h6, by rw [h7]; simp⟩, q', h6, h7⟩

/-- A ring never opens. -/
theorem Flight.Ring.poll {w : Flight α} {js : List Nat} (h : w.Ring js) (i : Nat) : (w.poll i).Ring js := by
  rcases w.poll_cases i with ⟨β, x, k, hx, hg, e⟩ | ⟨β, x, k, _, _, _, e⟩ | ⟨e, _⟩
  · have hi : i ∉ js := by
      intro hi
      obtain ⟨q, l, r, h1, _, h2, j', _, q', h3, h4⟩ := h.2 i hi
      rw [hx] at h1
      cases h1
      unfold Flight.grants at hg
      rw [h2] at hg
      simp only [Bool.and_eq_true] at hg
      have := hg.1
      unfold Flight.free at this
      rw [List.all_eq_true] at this
      have := this q' (List.mem_of_getElem? h3)
      rw [h4] at this
      simp [Mode.clash] at this
    rw [e]
    refine ⟨h.1, fun j hj => ?_⟩
    obtain ⟨q, l, r, h1, h2, h3, j', h4, q', h5, h6⟩ := h.2 j hj
    have hne : ∀ j ∈ js, i ≠ j := fun j hj he => hi (he ▸ hj)
    exact ⟨q, l, r, by rw [List.getElem?_set_ne (hne j hj)]; exact h1, h2, h3, j', h4, q',
      by rw [List.getElem?_set_ne (hne j' h4)]; exact h5, h6⟩
  · rw [e]; exact h
  · rw [e]; exact h

theorem Flight.Ring.run {w : Flight α} {js : List Nat} (h : w.Ring js) (sched : List Nat) : (w.run sched).Ring js := by
  induction sched generalizing w with
  | nil => exact h
  | cons i is ih => exact ih (h.poll i)

theorem Flight.Ring.waits {w : Flight α} {js : List Nat} (h : w.Ring js) {j : Nat} (hj : j ∈ js) :
    ∃ q, w.calls[j]? = some q ∧ q.result = none := by
  obtain ⟨q, l, r, h1, h2, _⟩ := h.2 j hj
  refine ⟨q, h1, ?_⟩
  cases q with
  | pure a => cases h2
  | throw e => rfl
  | step x k => rfl

theorem Mannerly.settles {w : Flight α} (h : Mannerly w) (f : Nat → Nat)
    (hf : ∀ i < w.calls.length, ∀ n, ∃ m, n ≤ m ∧ f m = i) :
    ∃ n, (∀ p ∈ (w.run ((List.range n).map f)).calls, ∃ r, p.result = some r) ∨
      ∃ js, (w.run ((List.range n).map f)).Ring js := by
  obtain ⟨n, hn⟩ := Flight.settles (Inv := Mannerly) (G := fun w => ∃ js, w.Ring js)
    (fun w i h => h.poll i) (fun w h => by
      by_cases he : ∀ p ∈ w.calls, p.ended = true
      · exact .inl he
      · simp only [not_forall] at he
        obtain ⟨p, hp, hn⟩ := he
        obtain ⟨i, hi⟩ := List.getElem?_of_mem hp
        rcases h.progress hi (by simpa using hn) with h | h
        · exact .inr (.inr h)
        · exact .inr (.inl h)) w h f hf
  refine ⟨n, hn.imp (fun hn p hp => ?_) id⟩
  exact ((h.run _).replies p hp).result (hn p hp)

/-- Who is in a ring is a deletion. -/
theorem Flight.Ring.deletes {cs : List Cmd} (hw : ∀ c ∈ cs, c.walks = false) {s : St} {sched js : List Nat}
    (h : ((Flight.start (cs.map Prog.exec) s).run sched).Ring js) {j : Nat} (hj : j ∈ js) :
    ∃ c, cs[j]? = some c ∧ c.deletes = true := by
  obtain ⟨q, l, r, h1, h2, h3, -⟩ := h.2 j hj
  have hlt := (List.getElem?_eq_some_iff.mp h1).1
  rw [Flight.run_length] at hlt
  have hlt : j < cs.length := by simpa [Flight.start] using hlt
  refine ⟨cs[j], List.getElem?_eq_getElem hlt, ?_⟩
  by_contra hd
  have key : ∀ (sched : List Nat) (w : Flight Reply), (∀ p, w.calls[j]? = some p → Simple _ p) →
      ∀ p, (w.run sched).calls[j]? = some p → Simple _ p := by
    intro sched
    induction sched with
    | nil => exact fun w h => h
    | cons i is ih =>
      intro w h
      refine ih (w.poll i) fun p hp => ?_
      rcases w.poll_cases i with ⟨β, x, k, hx, _, e⟩ | ⟨β, x, k, _, _, _, e⟩ | ⟨e, _⟩
      · rw [e] at hp
        dsimp only at hp
        rw [List.getElem?_set] at hp
        split at hp
        · rename_i hij
          subst hij
          split at hp
          · cases hp; exact (h _ hx).2 _
          · cases hp
        · exact h p hp
      · rw [e] at hp; exact h p hp
      · rw [e] at hp; exact h p hp
  have hs := key sched _ (fun p hp => by
    rw [show (Flight.start (cs.map Prog.exec) s).calls = cs.map Prog.exec from rfl, List.getElem?_map,
      List.getElem?_eq_getElem hlt] at hp
    cases hp
    exact simple_exec _ (hw _ (List.getElem_mem hlt)) (by simpa using hd)) q h1
  cases q with
  | pure a => cases h2
  | throw e => cases h2
  | step x k =>
    rcases hs.1 with h | h
    · rw [show (Prog.step x k).needs = x.needs from rfl, h] at h3; cases h3
    · rw [show (Prog.step x k).holds = x.holds from rfl, h] at h2; cases h2

/-! ## With traversals -/

/-- Asks for locks only while holding none, except for a second read lock of the one node of which it
holds a read lock. -/
def Twice (α : Type) : Prog α → Prop
  | .pure _ => True
  | .throw _ => True
  | .step x k => (x.needs = none ∨ x.holds = [] ∨ ∃ a, x.holds = [(a, .read)] ∧ x.needs = some (a, .read)) ∧
      ∀ r, Twice α (k r)

theorem Simple.twice {p : Prog α} (h : Simple α p) : Twice α p := by
  induction p with
  | pure a => trivial
  | throw e => trivial
  | step x k ih => exact ⟨h.1.imp id .inl, fun r => ih r (h.2 r)⟩

theorem Twice.bind {p : Prog α} {f : α → Prog β} (h : Twice α p) (hf : ∀ a, Twice β (f a)) : Twice β (p >>= f) := by
  induction p with
  | pure a => exact hf a
  | throw e => trivial
  | step x k ih => exact ⟨h.1, fun r => ih r (h.2 r)⟩

theorem twice_acts : RActs Twice where
  pure _ := trivial
  throw _ := trivial
  bind := Twice.bind
  readNode _ := (simple_acts.readNode _).twice
  getChild _ _ := (simple_acts.getChild _ _).twice
  getKeyValue _ _ := (simple_acts.getKeyValue _ _).twice
  version := simple_acts.version.twice
  descentFuel := simple_acts.descentFuel.twice
  blocksGet _ := (simple_acts.blocksGet _).twice

theorem Twice.tryResult {p : Prog α} (h : Twice α p) : Twice _ (Prog.tryResult p) := by
  induction p with
  | pure a => trivial
  | throw e => cases e <;> trivial
  | step x k ih => exact ⟨h.1, fun r => ih r (h.2 r)⟩

theorem Twice.replyOf {p : Prog α} (f : α → Reply) (h : Twice α p) : Twice _ (Prog.replyOf f p) := by
  induction p with
  | pure a => trivial
  | throw e => trivial
  | step x k ih => exact ⟨h.1, fun r => ih r (h.2 r)⟩

theorem twice_again (a : Addr) : Twice Node (Prog.under a .read (Prog.readNode a)) :=
  ⟨.inr (.inr ⟨a, rfl, rfl⟩), fun r => by cases r <;> trivial⟩

theorem twice_traverse (b : TraverseConfigBuilder) (rs : List Bool) : Twice _ (Prog.exec (.traverse b rs)) :=
  Twice.replyOf _ (twice_acts.traverseSession_ Twice.tryResult (fun a => twice_again a) b rs)

/-- What a call in flight may still do, by its kind. -/
def Fits (c : Cmd) (p : Prog Reply) : Prop :=
  (c.walks = true → Twice _ p) ∧ (c.walks = false → Mild _ p) ∧ (c.walks = false → c.deletes = false → Simple _ p)

theorem fits_exec (c : Cmd) : Fits c (Prog.exec c) := by
  refine ⟨fun h => ?_, mild_exec c, simple_exec c⟩
  cases c with
  | traverse b rs => exact twice_traverse b rs
  | _ => cases h

theorem Fits.step {c : Cmd} {x : Atom β} {k : Except Err β → Prog Reply} (h : Fits c (.step x k)) (r : Except Err β) :
    Fits c (k r) :=
  ⟨fun hw => (h.1 hw).2 r, fun hw => (h.2.1 hw).2 r, fun hw hd => (h.2.2 hw hd).2 r⟩

/-- Each call fits its command. -/
structure Suits (cs : List Cmd) (w : Flight Reply) : Prop where
  length : w.calls.length = cs.length
  fits : ∀ (i : Nat) c p, cs[i]? = some c → w.calls[i]? = some p → Fits c p

theorem Suits.poll {cs : List Cmd} {w : Flight Reply} (h : Suits cs w) (i : Nat) : Suits cs (w.poll i) := by
  rcases w.poll_cases i with ⟨β, x, k, hx, _, e⟩ | ⟨β, x, k, _, _, _, e⟩ | ⟨e, _⟩
  · rw [e]
    refine ⟨by simpa using h.length, fun j c p hc hp => ?_⟩
    dsimp only at hp
    rw [List.getElem?_set] at hp
    split at hp
    · rename_i hij
      subst hij
      split at hp
      · cases hp; exact (h.fits i c _ hc hx).step _
      · cases hp
    · exact h.fits j c p hc hp
  · rw [e]; exact ⟨h.length, h.fits⟩
  · rw [e]; exact h

theorem Suits.run {cs : List Cmd} {w : Flight Reply} (h : Suits cs w) (sched : List Nat) : Suits cs (w.run sched) := by
  induction sched generalizing w with
  | nil => exact h
  | cons i is ih => exact ih (h.poll i)

theorem suits_start (cs : List Cmd) (s : St) : Suits cs (Flight.start (cs.map Prog.exec) s) := by
  refine ⟨by simp [Flight.start], fun i c p hc hp => ?_⟩
  rw [show (Flight.start (cs.map Prog.exec) s).calls = cs.map Prog.exec from rfl, List.getElem?_map, hc] at hp
  cases hp
  exact fits_exec c

/-- Each of the calls `js` is a traversal that holds a read lock of a node and asks for another of
the same node, or a deletion that holds the list of children of a node and asks for that of a node
of which one of `js` holds a lock. -/
def Flight.Jam (cs : List Cmd) (w : Flight α) (js : List Nat) : Prop :=
  js ≠ [] ∧ ∀ j ∈ js, ∃ c q, cs[j]? = some c ∧ w.calls[j]? = some q ∧
    ((c.walks = true ∧ ∃ a, q.holds = [(a, .read)] ∧ q.needs = some (a, .read)) ∨
     (c.deletes = true ∧ ∃ l r, q.holds = [(l, .children)] ∧ q.needs = some (r, .children) ∧
      ∃ j' ∈ js, ∃ q' m, w.calls[j']? = some q' ∧ (r, m) ∈ q'.holds))

theorem Suits.progress {cs : List Cmd} {w : Flight Reply} (hw : Suits cs w) {i : Nat} {p : Prog Reply}
    (hi : w.calls[i]? = some p) (hn : p.ended = false)
    (h : ¬ ∃ (j : Nat) (q : Prog Reply), w.calls[j]? = some q ∧ q.ended = false ∧ w.grants j q = true) :
    ∃ js, w.Jam cs js := by
  have hneed : ∀ (j : Nat) (q : Prog Reply), w.calls[j]? = some q → q.ended = false → ∃ a m, q.needs = some (a, m) := by
    intro j q h1 h2
    cases h3 : q.needs with
    | none => exact absurd ⟨j, q, h1, h2, by unfold Flight.grants; rw [h3]⟩ h
    | some x => exact ⟨x.1, x.2, rfl⟩
  -- who holds a lock asks for another
  have hold : ∀ (j : Nat) (q : Prog Reply), w.calls[j]? = some q → q.holds ≠ [] →
      ∃ c, cs[j]? = some c ∧ ((c.walks = true ∧ ∃ a, q.holds = [(a, .read)] ∧ q.needs = some (a, .read)) ∨
        (c.deletes = true ∧ ∃ l r, q.holds = [(l, .children)] ∧ q.needs = some (r, .children))) := by
    intro j q h1 h2
    have hlt := (List.getElem?_eq_some_iff.mp h1).1
    rw [hw.length] at hlt
    refine ⟨cs[j], List.getElem?_eq_getElem hlt, ?_⟩
    have h3 := hw.fits j _ q (List.getElem?_eq_getElem hlt) h1
    cases q with
    | pure a => exact absurd rfl h2
    | throw e => exact absurd rfl h2
    | step x k =>
      obtain ⟨a, m, ha⟩ := hneed j _ h1 rfl
      have h4 : x.needs ≠ none := by
        intro h
        rw [show (Prog.step x k).needs = x.needs from rfl, h] at ha
        cases ha
      have h5 : x.holds ≠ [] := h2
      cases hcw : cs[j].walks with
      | true =>
        rcases (h3.1 hcw).1 with h | h | h
        · exact absurd h h4
        · exact absurd h h5
        · exact .inl ⟨rfl, h⟩
      | false =>
        cases hcd : cs[j].deletes with
        | true =>
          rcases (h3.2.1 hcw).1 with h | h | h
          · exact absurd h h4
          · exact absurd h h5
          · exact .inr ⟨rfl, h⟩
        | false =>
          rcases (h3.2.2 hcw hcd).1 with h | h
          · exact absurd h h4
          · exact absurd h h5
  -- of what is asked for, a lock is held
  have held : ∀ (j : Nat) (q : Prog Reply), w.calls[j]? = some q → ∀ a m, q.needs = some (a, m) →
      ∃ (j' : Nat) (q' : Prog Reply) (m' : Mode), w.calls[j']? = some q' ∧ (a, m') ∈ q'.holds := by
    intro j q h1 a m ha
    by_cases hf : ∀ m, Flight.free w.calls a m = true
    · exact absurd (Flight.grants_free hf h1 ha) h
    · simp only [not_forall] at hf
      obtain ⟨m', hf⟩ := hf
      rw [Bool.not_eq_true] at hf
      unfold Flight.free at hf
      rw [List.all_eq_false] at hf
      obtain ⟨q', hq', hf⟩ := hf
      rw [Bool.not_eq_true, List.all_eq_false] at hf
      obtain ⟨g, hg, hf⟩ := hf
      obtain ⟨j', hj'⟩ := List.getElem?_of_mem hq'
      simp at hf
      exact ⟨j', q', g.2, hj', by rw [← hf.1]; exact hg⟩
  let js := (List.range w.calls.length).filter fun j => match w.calls[j]? with
    | some q => !q.holds.isEmpty
    | none => false
  have hjs : ∀ j, j ∈ js ↔ ∃ q, w.calls[j]? = some q ∧ q.holds ≠ [] := by
    intro j
    rw [List.mem_filter, List.mem_range]
    constructor
    · rintro ⟨h1, h2⟩
      rw [List.getElem?_eq_getElem h1] at h2 ⊢
      exact ⟨_, rfl, by simpa using h2⟩
    · rintro ⟨q, h1, h2⟩
      exact ⟨(List.getElem?_eq_some_iff.mp h1).1, by rw [h1]; simpa using h2⟩
  obtain ⟨a, m, ha⟩ := hneed i p hi hn
  obtain ⟨j0, q0, m0, h0, h1⟩ := held i p hi a m ha
  refine ⟨js, List.ne_nil_of_mem ((hjs j0).2 ⟨q0, h0, List.ne_nil_of_mem h1⟩), fun j hj => ?_⟩
  obtain ⟨q, h2, h3⟩ := (hjs j).1 hj
  obtain ⟨c, hc, h4⟩ := hold j q h2 h3
  refine ⟨c, q, hc, h2, ?_⟩
  rcases h4 with h4 | ⟨hd, l, r, h4, h5⟩
  · exact .inl h4
  · obtain ⟨j', q', m', h6, h7⟩ := held j q h2 r _ h5
    exact .inr ⟨hd, l, r, h4, h5, j', (hjs j').2 ⟨q', h6, List.ne_nil_of_mem h7⟩, q', m', h6, h7⟩

end Hyperbee
