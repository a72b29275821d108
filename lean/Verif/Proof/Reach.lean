import Verif.Proof.Append
import Verif.Proof.RelTop
/-!
# Facts about single calls in reachable states

Helper lemmas for the property theorems.
-/

namespace Hyperbee

theorem Holds.get {s : St} {d : Db} (h : Holds s d) (k : Bytes) : (exec (.get k) s).1 = .got (d.map k) :=
  (exec_refines h (.get k)).1

theorem Reachable.init : Reachable St.init := ⟨[], rfl⟩

theorem Reachable.runSt {s : St} (h : Reachable s) (cs : List Cmd) : Reachable (runSt cs s) := by
  obtain ⟨cs', rfl⟩ := h
  exact ⟨cs' ++ cs, by rw [runSt_append]⟩

theorem Holds.max_len {s : St} {d : Db} (h : Holds s d) : d.nextSeq = max 1 s.core.length := by
  rw [Db.nextSeq, h.ver]

theorem Db.entry_eq (d : Db) (k : Bytes) : d.entry k = (d.map k).map fun e => ⟨e.1, k, e.2⟩ := rfl

/-- `put_compare_and_swap` asks its function once, about one old and one new entry fixed by the
state. -/
theorem putCAS_decides (k : Bytes) (v : Option Bytes) (s : St) :
    (∃ X, ∀ cas, putCompareAndSwap k v cas s = X) ∨
    ∃ o n X Y, ∀ cas, putCompareAndSwap k v cas s = if cas o n = false then Y else X := by
  unfold putCompareAndSwap
  simp only [putPrepare_eq]
  have key : ∀ (r : Option Addr) (s' : St),
      (∃ X, ∀ cas, (putAfter k v cas r >>= commitPrepared) s' = X) ∨
      ∃ o n X Y, ∀ cas, (putAfter k v cas r >>= commitPrepared) s' = if cas o n = false then Y else X := by
    intro r s'
    cases r with
    | none =>
      right
      refine ⟨none, ⟨s'.core.length, k, v⟩,
        ((do
          let ch ← putLoop false [] (Changes.new s'.core.length k v) s'.core.length []
          pure (Prepared.commit ch (none, some s'.core.length))) >>= commitPrepared) s',
        (.ok (none, none), s'), fun cas => ?_⟩
      simp only [bind_run, putAfter, version_run]
      cases cas none ⟨s'.core.length, k, v⟩ <;> rfl
    | some root =>
      cases hn : nearestNode root (.finite k) s' with
      | mk r1 s1 =>
        cases r1 with
        | error e => left; exact ⟨_, fun cas => by simp only [bind_run, putAfter, version_run, hn]; rfl⟩
        | ok mp =>
          obtain ⟨m, path⟩ := mp
          cases m with
          | none =>
            right
            refine ⟨none, ⟨s'.core.length, k, v⟩,
              ((do
                let ch ← putLoop false path (Changes.new s'.core.length k v) s'.core.length []
                pure (Prepared.commit ch (none, some s'.core.length))) >>= commitPrepared) s1,
              (.ok (none, none), s1), fun cas => ?_⟩
            simp only [bind_run, putAfter, version_run, hn]
            simp only [Option.isSome_none, Bool.false_eq_true, if_false, bind_run, pure_run]
            cases hcas : cas none ⟨s'.core.length, k, v⟩
            · simp only [if_true]; rfl
            · simp only [Bool.true_eq_false, if_false, bind_run, pure_run]
          | some q =>
            cases hp : orPanic "put.rs:109 path[path.len() - 1]" path.head? s1 with
            | mk r2 s2 =>
              cases r2 with
              | error e =>
                left
                refine ⟨(.error e, s2), fun cas => ?_⟩
                simp only [bind_run, putAfter, version_run, hn]
                simp only [Option.isSome_some, if_true, bind_run, hp]
              | ok ni =>
                obtain ⟨node, index⟩ := ni
                cases hk : getKeyValue node index s2 with
                | mk r3 s3 =>
                  cases r3 with
                  | error e =>
                    left
                    refine ⟨(.error e, s3), fun cas => ?_⟩
                    simp only [bind_run, putAfter, version_run, hn]
                    simp only [Option.isSome_some, if_true, bind_run, hp, hk]
                  | ok kv =>
                    right
                    refine ⟨some kv, ⟨s'.core.length, k, v⟩,
                      ((do
                        let ch ← putLoop true path (Changes.new s'.core.length k v) s'.core.length []
                        pure (Prepared.commit ch (some q, some s'.core.length))) >>= commitPrepared) s3,
                      (.ok (some q, none), s3), fun cas => ?_⟩
                    simp only [bind_run, putAfter, version_run, hn]
                    simp only [Option.isSome_some, if_true, bind_run, hp, hk, pure_run]
                    cases hcas : cas (some kv) ⟨s'.core.length, k, v⟩
                    · simp only [if_true]; rfl
                    · simp only [Bool.true_eq_false, if_false, bind_run, pure_run]
  cases hr : getRoot true s with
  | mk r s' =>
    cases r with
    | error e =>
      left
      exact ⟨(.error e, s'), fun cas => by simp only [bind_run, hr]⟩
    | ok r =>
      have : ∀ cas, ((getRoot true >>= putAfter k v cas) >>= commitPrepared) s
          = (putAfter k v cas r >>= commitPrepared) s' := by
        intro cas
        simp only [bind_run, hr]
      simp only [this]
      exact key r s'

/-- `del_compare_and_swap` asks its function at most once, about one entry fixed by the state. -/
theorem delCAS_decides (k : Bytes) (s : St) :
    (∃ X, ∀ cas, delCompareAndSwap k cas s = X) ∨
    ∃ e q X s', ∀ cas, delCompareAndSwap k cas s =
      if cas e = false then (.ok (some (false, q)), s') else X := by
  unfold delCompareAndSwap delPrepare
  cases hr : getRoot false s with
  | mk r s' =>
    cases r with
    | error e => left; exact ⟨_, fun cas => by simp only [bind_run, hr]; rfl⟩
    | ok r =>
      cases r with
      | none => left; exact ⟨_, fun cas => by simp only [bind_run, hr]; rfl⟩
      | some root =>
        cases hn : nearestNode root (.finite k) s' with
        | mk r1 s1 =>
          cases r1 with
          | error e => left; exact ⟨_, fun cas => by simp only [bind_run, hr, hn]; rfl⟩
          | ok mp =>
            obtain ⟨m, path⟩ := mp
            cases m with
            | none => left; exact ⟨_, fun cas => by simp only [bind_run, hr, hn]; rfl⟩
            | some q =>
              cases hp : orPanic "del.rs:430 path[len - 1]" path.head? s1 with
              | mk r2 s2 =>
                cases r2 with
                | error e => left; exact ⟨_, fun cas => by simp only [bind_run, hr, hn, hp]; rfl⟩
                | ok ni =>
                  obtain ⟨node, index⟩ := ni
                  cases hk : getKeyValue node index s2 with
                  | mk r3 s3 =>
                    cases r3 with
                    | error e => left; exact ⟨_, fun cas => by simp only [bind_run, hr, hn, hp, hk]; rfl⟩
                    | ok kv =>
                      right
                      refine ⟨kv, q, ((do
                          let ch ← delChanges k path
                          pure (Prepared.commit ch (some (true, q)))) >>= commitPrepared) s3,
                        s3, fun cas => ?_⟩
                      simp only [bind_run, hr, hn, hp, hk]
                      cases hcas : cas kv
                      · simp only [if_true]; rfl
                      · simp only [Bool.true_eq_false, if_false, bind_run, pure_run]

/-- The function of `put_compare_and_swap` is asked exactly about the stored entry and the new one. -/
theorem Holds.putCAS_asks {s : St} {d : Db} (h : Holds s d) (k : Bytes) (v : Option Bytes) :
    ∃ X Y, ∀ cas, putCompareAndSwap k v cas s =
      if cas (d.entry k) ⟨d.nextSeq, k, v⟩ = false then Y else X := by
  have hres : ∀ cas, (putCompareAndSwap k v cas s).1 = .ok ((d.map k).map (·.1),
        if cas (d.entry k) ⟨d.nextSeq, k, v⟩ then some d.nextSeq else none) := by
    intro cas
    obtain ⟨s', h1, _⟩ := putCAS_holds h k v cas
    rw [h1]
  rcases putCAS_decides k v s with ⟨X, hX⟩ | ⟨o, n, X, Y, hX⟩
  · exfalso
    have a := hres (fun _ _ => true)
    have b := hres (fun _ _ => false)
    rw [hX] at a b
    rw [a] at b
    simp at b
  · have hT := hres (fun _ _ => true)
    have hF := hres (fun _ _ => false)
    rw [hX] at hT hF
    simp only [Bool.true_eq_false, if_false, if_true] at hT hF
    have hq := hres (fun o' n' => decide (o' = o ∧ n' = n))
    rw [hX] at hq
    have e : d.entry k = o ∧ (⟨d.nextSeq, k, v⟩ : KeyValueData) = n := by
      by_cases he : d.entry k = o ∧ (⟨d.nextSeq, k, v⟩ : KeyValueData) = n
      · exact he
      · exfalso
        rw [if_neg (by simp)] at hq
        rw [hT] at hq
        simp [he] at hq
    refine ⟨X, Y, fun cas => ?_⟩
    rw [hX, e.1, e.2]

/-- The function of `del_compare_and_swap` is asked exactly about the stored entry. -/
theorem Holds.delCAS_asks {s : St} {d : Db} (h : Holds s d) (k : Bytes) {e : KeyValueData} (he : d.entry k = some e) :
    ∃ X Y, ∀ cas, delCompareAndSwap k cas s = if cas e = false then Y else X := by
  have hres : ∀ cas, (delCompareAndSwap k cas s).1 = .ok (some (cas e, e.seq)) := by
    intro cas
    obtain ⟨s', h1, _⟩ := delCAS_holds h k cas
    rw [h1, he]; rfl
  rcases delCAS_decides k s with ⟨X, hX⟩ | ⟨o, q, X, Y, hX⟩
  · exfalso
    have a := hres (fun _ => true)
    have b := hres (fun _ => false)
    rw [hX] at a b
    rw [a] at b
    simp at b
  · have hT := hres (fun _ => true)
    rw [hX] at hT
    simp only [Bool.true_eq_false, if_false] at hT
    have hq := hres (fun o' => decide (o' = o))
    rw [hX] at hq
    have e : e = o := by
      by_cases he : e = o
      · exact he
      · exfalso
        rw [if_neg (by simp)] at hq
        rw [hT] at hq
        simp [he] at hq
    refine ⟨X, (.ok (some (false, q)), Y), fun cas => ?_⟩
    rw [hX, e]

/-- The function of `del_compare_and_swap` is not asked when the key is absent. -/
theorem Holds.delCAS_silent {s : St} {d : Db} (h : Holds s d) (k : Bytes) (he : d.map k = none) :
    ∃ X, ∀ cas, delCompareAndSwap k cas s = X := by
  have hres : ∀ cas, (delCompareAndSwap k cas s).1 = .ok none := by
    intro cas
    obtain ⟨s', h1, _⟩ := delCAS_holds h k cas
    rw [h1, Db.entry, he]; rfl
  rcases delCAS_decides k s with hX | ⟨o, q, X, s', hX⟩
  · exact hX
  · exfalso
    have := hres (fun _ => false)
    rw [hX] at this
    simp at this

/-- A call that does not change the abstract version appends nothing, and later calls do not
notice it. -/
theorem Holds.quiet {s : St} {d : Db} (h : Holds s d) {c : Cmd} (hv : (d.next c).version = d.version) :
    (exec c s).2.core = s.core ∧ ∀ cs, runReplies cs (exec c s).2 = runReplies cs s := by
  have h2 := (exec_refines h c).2
  have hc : (exec c s).2.core = s.core := exec_core_eq (by rw [← h2.ver, hv, h.ver])
  exact ⟨hc, fun cs => (runs_same cs h h2 hc).1.symm⟩

end Hyperbee
