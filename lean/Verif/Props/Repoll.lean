import Verif.Props.Traversal
import Verif.Props.Structure
import Verif.Proof.Repoll
import Verif.Proof.Sub
/-!
# Polling a stream after its end
-/

namespace Hyperbee

/-- Every key is above the lower limit or below the upper one. -/
theorem build_total {b : TraverseConfigBuilder} {conf : TraverseConfig} (hb : b.build = .ok conf) (k : Bytes) :
    AboveMin conf.minValue conf.minInclusive k ∨ BelowMax conf.maxValue conf.maxInclusive k := by
  have hord := fun lo hi => build_ordered hb (lo := lo) (hi := hi)
  obtain ⟨mn, mi, mx, xi, rv⟩ := b
  unfold TraverseConfigBuilder.build at hb
  split at hb
  · rename_i hv
    cases hb
    cases mn with
    | none => left; trivial
    | some mn =>
      cases mx with
      | none => right; trivial
      | some mx =>
        cases mn with
        | infinite sg =>
          cases sg with
          | negative => left; trivial
          | positive =>
            cases mx with
            | infinite sg => cases sg <;> simp [validateBuilder] at hv
            | finite hi => simp [validateBuilder] at hv
        | finite lo =>
          cases mx with
          | infinite sg =>
            cases sg with
            | positive => right; trivial
            | negative => simp [validateBuilder] at hv
          | finite hi =>
            simp only [Option.getD_some, AboveMin, BelowMax]
            have h := hord lo hi rfl rfl
            simp only [] at h
            rcases blt_trichotomy lo k with h1 | h1 | h1
            · exact .inl (.inl h1)
            · rcases h with h | ⟨_, h2, _⟩
              · exact .inr (.inl (h1 ▸ h))
              · exact .inl (.inr ⟨h2, h1.symm⟩)
            · rcases h with h | ⟨h2, _⟩
              · exact .inr (.inl (List.lt_trans h1 h))
              · exact .inr (.inl (h2 ▸ h1))
  · cases hb

/-- C62.  When a stream that has ended can be polled again.  Let `t` be the tree stored in the core.  Polling
again returns `None`, as often as one likes and whatever else happens meanwhile, exactly when no key in
the top node of `t` lies beyond the limit at which the traversal ends (the upper limit, or the lower one
when reversed).  Otherwise every further poll panics. -/
theorem repoll_exact {s : St} (hs : Reachable s) {t : STree} (ht : StoresRoot s.core t) {b : TraverseConfigBuilder}
    {conf : TraverseConfig} (hb : b.build = .ok conf) (sched : List Bool)
    {xs : List (Except Err KeyValueData)} {fs fs' : List Frame} {s' s'' : St}
    (hrun : collect sched conf s = (.ok (xs, some fs), s')) {ready woken : Bool}
    (hend : poll ready fs s' = (.ok (.ready none woken, fs'), s'')) :
    ((∀ (ready' : Bool) (s₃ : St), poll ready' fs' s₃ = (.ok (.ready none true, fs'), s₃)) ↔
      ∀ k ∈ t.keys, if conf.reversed then AboveMin conf.minValue conf.minInclusive k.2
        else BelowMax conf.maxValue conf.maxInclusive k.2) ∧
    ((∀ (ready' : Bool) (s₃ : St), ∃ site, poll ready' fs' s₃ = (.error (.panic site), s₃)) ↔
      ∃ k ∈ t.keys, if conf.reversed then ¬ AboveMin conf.minValue conf.minInclusive k.2
        else ¬ BelowMax conf.maxValue conf.maxInclusive k.2) := by
  obtain ⟨d, hd⟩ := hs.holds
  have hS := build_sound hb
  have hO : ∀ k, PastEnd conf k → StartOK conf k := by
    intro k
    have := build_total hb k
    unfold PastEnd StartOK
    cases conf.reversed
    · exact fun h => this.resolve_right h
    · exact fun h => this.resolve_left h
  -- the tree of the statement is the one of the invariant
  obtain ⟨H, u, hu, hc, rfl⟩ := hs.treeAt_coh ht
  obtain ⟨a, s1, g1, e1, ha⟩ := getRoot_run hu hd.wf false
  have htr : traverse conf s = (.ok [Frame.new a conf], s1) := by
    unfold traverse
    rw [bind_ok g1]
    rfl
  have hst : ∃ out fuel, Strm s1 conf [Frame.new a conf] u out fuel := by
    obtain ⟨fs, s1', h1, _, hst⟩ := traverse_run hu hd.wf hc conf
    rw [htr] at h1
    cases h1
    exact ⟨_, _, hst⟩
  obtain ⟨out, fuel, hst⟩ := hst
  unfold collect at hrun
  rw [bind_ok htr] at hrun
  obtain ⟨f, rest, out', fuel', rfl, hcore, hw', hst', hTodo⟩ := drive_todo hS hO (c := s.core) sched s1 _ _ _ _ e1.core hst e1.wf
    (fun is hi => by cases hi) hrun
  have hkeys : ∀ k, k ∈ (u.spec s.core).keys ↔ ∃ q ∈ u.keys, k = (q, keyOf s.core q) := by
    intro k
    cases u
    simp [T.spec, STree.keys, T.keys, eq_comm]
  have hpast : (∀ k ∈ (u.spec s.core).keys, if conf.reversed then AboveMin conf.minValue conf.minInclusive k.2
        else BelowMax conf.maxValue conf.maxInclusive k.2) ↔ ∀ q ∈ u.keys, ¬ PastEnd conf (keyOf s.core q) := by
    unfold PastEnd
    constructor
    · intro h q hq
      have := h _ ((hkeys _).mpr ⟨q, hq, rfl⟩)
      revert this
      cases conf.reversed <;> simp
    · intro h k hk
      obtain ⟨q, hq, rfl⟩ := (hkeys k).mp hk
      have := h q hq
      revert this
      cases conf.reversed <;> simp [Classical.not_not]
  have hpast' : (∃ k ∈ (u.spec s.core).keys, if conf.reversed then ¬ AboveMin conf.minValue conf.minInclusive k.2
        else ¬ BelowMax conf.maxValue conf.maxInclusive k.2) ↔ ∃ q ∈ u.keys, PastEnd conf (keyOf s.core q) := by
    unfold PastEnd
    constructor
    · rintro ⟨k, hk, h⟩
      obtain ⟨q, hq, rfl⟩ := (hkeys k).mp hk
      exact ⟨q, hq, h⟩
    · rintro ⟨q, hq, h⟩
      exact ⟨_, (hkeys _).mpr ⟨q, hq, rfl⟩, h⟩
  rw [hpast, hpast']
  rcases poll_none hend with ⟨p1, p2, p3, p4, p5, p6⟩ | ⟨i, kv, p1, p2, p3, p4⟩
  · have hnone : ∀ (ready' : Bool) (s₃ : St), poll ready' fs' s₃ = (.ok (.ready none true, fs'), s₃) := by
      rcases repoll_dichotomy hend with h | h
      · exact h
      · exfalso
        obtain ⟨site, h⟩ := h true s
        subst p4
        unfold poll at h
        simp only [p1, p2] at h
        unfold pollSetup at h
        obtain ⟨x, hx⟩ := Option.isSome_iff_exists.mp p6
        obtain ⟨x1, x2⟩ := x
        simp only [hx, p5] at h
        cases h
    have hno : ∀ q ∈ u.keys, ¬ PastEnd conf (keyOf s.core q) := by
      intro q hq hpe
      obtain ⟨j, hj⟩ := List.mem_iff_getElem?.mp hq
      have := (hTodo [] p5 j q hj).1 hpe
      simp [upcoming, p1] at this
    refine ⟨⟨fun _ => hno, fun _ => hnone⟩, ⟨fun h => ?_, fun ⟨q, hq, hpe⟩ => absurd hpe (hno q hq)⟩⟩
    obtain ⟨site, h⟩ := h true s
    rw [hnone true s] at h
    cases h
  · have hpan : ∀ (ready' : Bool) (s₃ : St), ∃ site, poll ready' fs' s₃ = (.error (.panic site), s₃) := by
      subst p4
      exact fun _ _ => ⟨_, rfl⟩
    have hyes : ∃ q ∈ u.keys, PastEnd conf (keyOf s.core q) := by
      cases hst' with
      | setup v a h1 h2 h3 h4 h5 => rw [h2] at p1; cases p1
      | iter v a h1 h2 h3 h4 h5 h6 => rw [h2] at p1; cases p1
      | child v a h1 h2 h3 h4 h5 ht h6 => rw [h2] at p1; cases p1
      | sub v a h1 h2 h3 h4 h5 h6 _ => rw [h2] at p1; cases p1
      | @key _ h _ j is x v a h1 h2 h3 h4 h5 h6 =>
        rw [h2] at p1
        cases p1
        have hv := h6.valid _ (List.mem_cons_self ..)
        rw [if_neg (by omega), show (2 * i + 1) / 2 = i by omega] at hv
        have hnk : u.node.keys = u.keys := by cases u; rfl
        obtain ⟨bk, hbk⟩ := v.dfdKeys u.keys[i] (List.getElem_mem hv)
        obtain ⟨s2, h7, _⟩ := getKeyValue_run hw' (v.heap a) (i := i) (q := u.keys[i])
          (by rw [hnk]; exact List.getElem?_eq_getElem hv) hbk
        rw [p2] at h7
        cases h7
        simp only [] at p3
        rw [h1, hcore] at p3
        have hstart := (hTodo is h5 i _ (List.getElem?_eq_getElem hv)).2 (by simp [upcoming, h2])
        refine ⟨_, List.getElem_mem hv, ?_⟩
        refine Classical.byContradiction fun hpe => ?_
        rw [(hS _).mpr ((inRange_iff _ _).mpr ⟨hstart, hpe⟩)] at p3
        cases p3
    refine ⟨⟨fun h => ?_, fun h => ?_⟩, ⟨fun _ => hyes, fun _ => hpan⟩⟩
    · obtain ⟨site, h'⟩ := hpan true s
      rw [h true s] at h'
      cases h'
    · obtain ⟨q, hq, hpe⟩ := hyes
      exact absurd hpe (h q hq)

/-- What the poll after the last one does to the stream of `conf` over the demo database, its end being
the poll after the first `n`. -/
def repollDemo (conf : TraverseConfig) (n : Nat) : Option (Nat × Bool) :=
  match collect (List.replicate n true) conf (runSt demo St.init) with
  | (.ok (xs, some fs), s') =>
    match poll true fs s' with
    | (.ok (.ready none _, fs'), s'') =>
      match poll true fs' s'' with
      | (.ok (.ready none _, _), _) => some (xs.length, false)
      | (.error (.panic _), _) => some (xs.length, true)
      | _ => none
    | _ => none
  | _ => none

/-- Both outcomes occur, in both directions.  The top node holds the keys 3, 14 and 22; a limit of 28
leaves out a key lower down only, a limit of 9 the last two keys of the top node. -/
example : repollDemo ⟨.infinite .negative, true, .finite [28], true, false⟩ 81 = some (24, false) ∧
    repollDemo ⟨.infinite .negative, true, .finite [9], true, false⟩ 37 = some (9, true) ∧
    repollDemo ⟨.finite [1], false, .finite [28], true, true⟩ 75 = some (21, false) ∧
    repollDemo ⟨.finite [25], false, .finite [28], true, true⟩ 19 = some (3, true) := by decide +kernel

example : ((wireBlock (runSt demo St.init).core ((runSt demo St.init).core.length - 1)).map fun x => x.2.map (·.keys)) =
    some [[31, 3, 17], [32, 1, 14, 27], [34, 6, 2, 28]] ∧
    [31, 3, 17].map (keyOf (runSt demo St.init).core) = [[3], [14], [22]] := by decide +kernel

end Hyperbee
