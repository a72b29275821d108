import Verif.Proof.PageFaults
/-!
# Reading page by page while reads fail (C109)
-/

namespace Hyperbee

/-! ## C109 -/

/-- Paging on behind the last entry seen misses entries if a read has failed before that entry, though all of
them were there all the time and the last page ended without an error. -/
theorem page_faults_false : ∃ s ps, Reachable s ∧
    pagingFlaky id {} ps s = [.items [.error (.getChildInTraverse .core), .ok ⟨5, [5], none⟩] false,
      .items ([6, 7, 8, 9, 10].map fun k => .ok ⟨k.toNat, [k], none⟩) true] ∧
    (exec (.get [1]) s).1 = .got (some (1, none)) :=
  ⟨demoTen, [([], List.replicate 8 true, List.replicate 14 none ++ [some .io]), ([], List.replicate 60 true, [])], demoTen_reachable,
    by decide +kernel, by decide +kernel⟩

/-- C109: a range is read page by page while reads fail as they please and other calls are made between pages;
no bound was given as an infinity.  Of each page the client keeps what comes before the first error, and the next
page begins behind the last key kept.  A page is refused, finds the database empty, fails for a read that failed,
panics for being polled after such an error, or is a list of entries.  What is kept of a page is in the range and
in the database when the page is read.  Over all pages keys come in the order asked for, so none comes twice.
Once a page without an error says that there is nothing more, every key of the range that was there when each
page was read has come. -/
theorem page_faults_partial (before : List Cmd) {b : TraverseConfigBuilder} {conf : TraverseConfig} (hb : b.build = .ok conf)
    (hfin : FiniteBounds b) (ps : List (List Cmd × List Bool × List (Option Fault))) :
    let rs := pagingFlaky .untilError b ps (runSt before St.init)
    let vs := views (Db.empty.after before) (ps.map fun p => (p.1, p.2.1))
    (∀ (i : Nat) (r : Reply) (v : Db), rs[i]? = some r → vs[i]? = some v →
      (r = .error .traverseConfigBuilder ∨ r = .error .noRoot ∧ v.version ≤ 1 ∨ r.readError = true ∨
        r = .error (.panic "traverse.rs:402 `async fn` resumed after completion") ∨
        ∃ (xs : List KeyValueData) (fin : Bool), r = .items (xs.map .ok) fin) ∧
      ∀ e ∈ r.entries, v.entry e.key = some e ∧ InRange conf e.key) ∧
    (rs.flatMap Reply.entries).Pairwise (fun x y => Behind conf x.key y.key) ∧
    ∀ (j : Nat) (r : Reply), rs[j]? = some r → r.lastPage → ∀ k, InRange conf k →
      (∀ (i : Nat) (v : Db), i ≤ j → vs[i]? = some v → v.map k ≠ none) →
      ∃ i r, i ≤ j ∧ rs[i]? = some r ∧ ∃ e ∈ r.entries, e.key = k := by
  intro rs vs
  obtain ⟨h1, h2, _, h3⟩ := pagingFlaky_aux hb hfin ps (run_refines before Holds.init).2 .first
  refine ⟨fun i r v hr hv => ⟨?_, (h1 i r v hr hv).2⟩, h2, fun j r hr hl k hk => h3 j r hr hl k hk fun l hl => (by cases hl)⟩
  rcases (h1 i r v hr hv).1 with (h | h | h) | ⟨e, h | h, h'⟩
  · exact .inl h
  · exact .inr (.inl h)
  · exact .inr (.inr (.inr (.inr h)))
  · exact .inr (.inr (.inl (readError_iff.mpr ⟨e, h, h'⟩)))
  · exact .inr (.inr (.inr (.inl (by rw [h', h]; rfl))))

/-- What the client keeps of a page is what the page yielded, up to the first error. -/
theorem page_faults_kept (xs : List (Except Err KeyValueData)) (fin : Bool) : ∃ (ys : List KeyValueData) (fin' : Bool),
    (Reply.items xs fin).untilError = .items (ys.map .ok) fin' ∧
    ((xs = ys.map .ok ∧ fin' = fin) ∨ ∃ e more, xs = ys.map .ok ++ .error e :: more ∧ fin' = false) := by
  induction xs with
  | nil => exact ⟨[], fin, by simp [Reply.untilError], .inl ⟨rfl, rfl⟩⟩
  | cons x xs ih =>
    cases x with
    | error e => exact ⟨[], false, by simp [Reply.untilError, Except.toOption], .inr ⟨e, xs, rfl, rfl⟩⟩
    | ok kv =>
      obtain ⟨ys, fin', h1, h2⟩ := ih
      simp only [Reply.untilError, Reply.items.injEq] at h1
      refine ⟨kv :: ys, fin', ?_, ?_⟩
      · simp only [Reply.untilError, Reply.items.injEq, List.map_cons]
        refine ⟨?_, ?_⟩
        · rw [List.takeWhile_cons_of_pos (by rfl), h1.1]
        · rw [List.all_cons, ← h1.2]; rfl
      · rcases h2 with ⟨rfl, h⟩ | ⟨e, more, rfl, h⟩
        · exact .inl ⟨rfl, h⟩
        · exact .inr ⟨e, more, rfl, h⟩

/-- A key cannot be read in the first page; a key is deleted and one put, and the second page fails; the third
yields the rest. -/
example : FiniteBounds {} ∧ (∃ conf, ({} : TraverseConfigBuilder).build = .ok conf) ∧
    pagingFlaky .untilError {} [([], List.replicate 20 true, List.replicate 37 none ++ [some .io]),
      ([.del [4], .put [11] none, .reopen], List.replicate 5 true, List.replicate 20 (some .missing)),
      ([], List.replicate 60 true, [])] demoTen =
    [.items [.ok ⟨1, [1], none⟩, .ok ⟨2, [2], none⟩] false, .error (.noBlockAtSeq 12),
      .items (([3, 5, 6, 7, 8, 9, 10].map fun k => .ok ⟨k.toNat, [k], none⟩) ++ [.ok ⟨12, [11], none⟩]) true] :=
  ⟨fun x => ⟨by simp, by simp⟩, ⟨_, rfl⟩, by decide +kernel⟩

end Hyperbee
