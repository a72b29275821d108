import Verif.Model.PageFaults
import Verif.Proof.Paging
import Verif.Props.Flaky
/-!
# Reading page by page while reads fail
-/

namespace Hyperbee

theorem takeWhile_ok : ∀ xs : List (Except Err KeyValueData), ∃ (ys : List KeyValueData) (more : List (Except Err KeyValueData)),
    xs = ys.map .ok ++ more ∧ xs.takeWhile (fun x => x.toOption.isSome) = ys.map .ok := by
  intro xs
  induction xs with
  | nil => exact ⟨[], [], rfl, rfl⟩
  | cons x xs ih =>
    cases x with
    | error e => exact ⟨[], .error e :: xs, rfl, rfl⟩
    | ok kv =>
      obtain ⟨ys, more, h1, h2⟩ := ih
      refine ⟨kv :: ys, more, by rw [h1]; rfl, ?_⟩
      rw [List.takeWhile_cons_of_pos (by rfl), h2]
      rfl

theorem takeWhile_all {p : Except Err KeyValueData → Bool} : ∀ {xs : List (Except Err KeyValueData)}, (∀ x ∈ xs, p x = true) → xs.takeWhile p = xs := by
  intro xs
  induction xs with
  | nil => intro _; rfl
  | cons x xs ih =>
    intro h
    rw [List.takeWhile_cons_of_pos (h x List.mem_cons_self), ih fun y hy => h y (List.mem_cons_of_mem _ hy)]

/-- What is left of a page is what a page may be if nothing fails, or the page could not be read at all. -/
theorem page_faults {s : St} {d : Db} (h : Holds s d) (b : TraverseConfigBuilder) (sched : List Bool) (fs : List (Option Fault)) :
    Holds (execFlaky fs (.traverse b sched) s).2 d ∧
    (d.Returns (.traverse b sched) (execFlaky fs (.traverse b sched) s).1.untilError ∨
      ∃ e, (ReadErr e ∨ e = resumed) ∧ (execFlaky fs (.traverse b sched) s).1.untilError = .error e) := by
  have hex := exec_refines h (.traverse b sched)
  have refused : s.core.length ≤ 1 ∨ (∃ e, b.build = .error e) → Holds (execFlaky fs (.traverse b sched) s).2 d ∧
      d.Returns (.traverse b sched) (execFlaky fs (.traverse b sched) s).1.untilError := by
    intro hr
    rw [traverse_refused hr]
    refine ⟨hex.2, ?_⟩
    have hret := hex.1
    have : (exec (.traverse b sched) s).1.untilError = (exec (.traverse b sched) s).1 := by
      simp only [Db.Returns] at hret
      cases hb : b.build with
      | error e => rw [hb] at hret; rw [hret]; rfl
      | ok conf =>
        rw [hb] at hret
        simp only [] at hret
        rcases hr with hr | ⟨e, he⟩
        · rw [if_pos (by rw [h.ver]; exact hr)] at hret
          rw [hret]; rfl
        · rw [hb] at he; cases he
    rw [this]
    exact hret
  rcases h.store with hbare | ⟨H, t, ht, hc, hcon⟩
  · exact ⟨(refused (.inl hbare.1)).1, .inl (refused (.inl hbare.1)).2⟩
  · cases hb : b.build with
    | error e => exact ⟨(refused (.inr ⟨e, hb⟩)).1, .inl (refused (.inr ⟨e, hb⟩)).2⟩
    | ok conf =>
      obtain ⟨e1, h1⟩ := traverse_flakes ht h.wf hc hb sched fs
      refine ⟨h.ext e1, ?_⟩
      rcases h1 with ⟨e, h1, h2⟩ | ⟨xs, fin, rest, h1, h2, _, h4, _⟩ | ⟨h1, _⟩
      · exact .inr ⟨e, .inl h1, by rw [h2]; rfl⟩
      · left
        rw [h1]
        simp only [Db.Returns, hb]
        rw [if_neg (by have := ht.two; rw [h.ver]; omega)]
        obtain ⟨ys, more, g1, g2⟩ := takeWhile_ok xs
        refine ⟨_, ys, _, listing_isListing ht hcon (build_sound hb), by rw [Reply.untilError, g2], ?_⟩
        split
        · rename_i hf
          rw [Bool.and_eq_true, List.all_eq_true] at hf
          have hall := h2.complete (h4 hf.1) fun e he => by have := hf.2 _ he; cases this
          have : ys.map Except.ok = xs := by
            rw [← g2]
            exact takeWhile_all hf.2
          rw [hall] at this
          exact (List.map_inj_right fun _ _ h => by cases h; rfl).mp this
        · exact h2.pre ys more g1
      · exact .inr ⟨_, .inr rfl, by rw [h1]; rfl⟩

theorem pagingFlaky_aux {b : TraverseConfigBuilder} {conf : TraverseConfig} (hb : b.build = .ok conf) (hfin : FiniteBounds b) :
    ∀ (ps : List (List Cmd × List Bool × List (Option Fault))) {s : St} {d : Db} {b' : TraverseConfigBuilder} {o : Option Bytes},
    Holds s d → Pager b conf b' o →
    (∀ (i : Nat) (r : Reply) (v : Db), (pagingFlaky .untilError b' ps s)[i]? = some r →
      (views d (ps.map fun p => (p.1, p.2.1)))[i]? = some v →
      ((r = .error .traverseConfigBuilder ∨ r = .error .noRoot ∧ v.version ≤ 1 ∨ ∃ (xs : List KeyValueData) (fin : Bool), r = .items (xs.map .ok) fin) ∨
        ∃ e, (ReadErr e ∨ e = resumed) ∧ r = .error e) ∧
      ∀ e ∈ r.entries, v.entry e.key = some e ∧ InRange conf e.key) ∧
    ((pagingFlaky .untilError b' ps s).flatMap Reply.entries).Pairwise (fun x y => Behind conf x.key y.key) ∧
    (∀ e ∈ (pagingFlaky .untilError b' ps s).flatMap Reply.entries, ∀ l ∈ o, Behind conf l e.key) ∧
    (∀ (j : Nat) (r : Reply), (pagingFlaky .untilError b' ps s)[j]? = some r → r.lastPage → ∀ k, InRange conf k → (∀ l ∈ o, Behind conf l k) →
      (∀ (i : Nat) (v : Db), i ≤ j → (views d (ps.map fun p => (p.1, p.2.1)))[i]? = some v → v.map k ≠ none) →
      ∃ i r, i ≤ j ∧ (pagingFlaky .untilError b' ps s)[i]? = some r ∧ ∃ e ∈ r.entries, e.key = k) := by
  intro ps
  induction ps with
  | nil =>
    intro s d b' o _ _
    exact ⟨fun i r v h => (by cases h), .nil, (by intro e he; cases he), fun j r h => (by cases h)⟩
  | cons p ps ih =>
    intro s d b' o hs hp
    obtain ⟨cs, sched, fs⟩ := p
    have h1 := (run_refines cs hs).2
    obtain ⟨h2, hret⟩ := page_faults h1 b' sched fs
    have hpg : pagingFlaky .untilError b' ((cs, sched, fs) :: ps) s = (execFlaky fs (.traverse b' sched) (runSt cs s)).1.untilError ::
      pagingFlaky .untilError (match (execFlaky fs (.traverse b' sched) (runSt cs s)).1.untilError.entries.getLast? with
        | some e => nextPage b' e.key | none => b') ps (execFlaky fs (.traverse b' sched) (runSt cs s)).2 := rfl
    have hvw : views d (((cs, sched, fs) :: ps).map fun p => (p.1, p.2.1)) =
      d.after cs :: views (d.after cs) (ps.map fun p => (p.1, p.2.1)) := rfl
    rw [hpg, hvw]
    generalize (execFlaky fs (.traverse b' sched) (runSt cs s)).1.untilError = r0 at *
    have hpage : ∃ o', Pager b conf (match r0.entries.getLast? with | some e => nextPage b' e.key | none => b') o' ∧
        ((r0 = .error .traverseConfigBuilder ∨ r0 = .error .noRoot ∧ (d.after cs).version ≤ 1 ∨
          ∃ (xs : List KeyValueData) (fin : Bool), r0 = .items (xs.map .ok) fin) ∨ ∃ e, (ReadErr e ∨ e = resumed) ∧ r0 = .error e) ∧
        (∀ e ∈ r0.entries, (d.after cs).entry e.key = some e ∧ InRange conf e.key ∧ ∀ l ∈ o, Behind conf l e.key) ∧
        r0.entries.Pairwise (fun x y => Behind conf x.key y.key) ∧
        (∀ k, (∀ l ∈ o', Behind conf l k) → (∀ e ∈ r0.entries, Behind conf e.key k) ∧ ∀ l ∈ o, Behind conf l k) ∧
        (2 ≤ (d.after cs).version → ∀ k, InRange conf k → (∀ l ∈ o, Behind conf l k) → (d.after cs).map k ≠ none →
          (∃ e ∈ r0.entries, e.key = k) ∨ (¬ r0.lastPage ∧ ∀ l ∈ o', Behind conf l k)) := by
      rcases hret with hret | ⟨e, he, rfl⟩
      · obtain ⟨o', q1, q2, q⟩ := page_cases hb hfin hp hret
        exact ⟨o', q1, .inl q2, q⟩
      · refine ⟨o, hp, .inr ⟨e, he, rfl⟩, (by intro e he; cases he), .nil, fun k hk => ⟨(by intro e he; cases he), hk⟩,
          fun _ k _ ho _ => .inr ⟨fun hl => ?_, ho⟩⟩
        rcases he with (_ | _) | rfl <;> exact hl
    obtain ⟨o', q1, q2, q3, q4, q5, q6⟩ := hpage
    obtain ⟨i1, i2, i3, i4⟩ := ih (d := d.after cs) h2 q1
    generalize pagingFlaky _ _ ps _ = rs at *
    generalize views _ (ps.map _) = vs at *
    refine ⟨?_, ?_, ?_, ?_⟩
    · intro i r v hr hv
      cases i with
      | zero =>
        cases hr; cases hv
        exact ⟨q2, fun e he => ⟨(q3 e he).1, (q3 e he).2.1⟩⟩
      | succ i => exact i1 i r v hr hv
    · rw [List.flatMap_cons, List.pairwise_append]
      exact ⟨q4, i2, fun x hx y hy => (q5 y.key (i3 y hy)).1 x hx⟩
    · intro e he l hl
      rw [List.flatMap_cons] at he
      rcases List.mem_append.mp he with he | he
      · exact (q3 e he).2.2 l hl
      · exact (q5 e.key (i3 e he)).2 l hl
    · intro j r hr hlast k hk ho hpres
      have hd : (d.after cs).map k ≠ none := hpres 0 _ (Nat.zero_le _) rfl
      have hv2 : 2 ≤ (d.after cs).version := by
        rcases h1.store with hbare | ⟨H, t, ht, _, _⟩
        · exact absurd (hbare.2 k) hd
        · rw [h1.ver]; exact ht.two
      rcases q6 hv2 k hk ho hd with h | ⟨h3, h4⟩
      · exact ⟨0, r0, Nat.zero_le _, rfl, h⟩
      · cases j with
        | zero => cases hr; exact absurd hlast h3
        | succ j =>
          obtain ⟨i, r', g1, g2, g3⟩ := i4 j r hr hlast k hk h4 fun i v hi hv => hpres (i + 1) v (by omega) hv
          exact ⟨i + 1, r', by omega, g2, g3⟩

end Hyperbee
