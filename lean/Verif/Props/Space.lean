import Verif.Proof.Space
import Verif.Proof.SteadyRun
import Verif.Props.Structure
import Verif.Props.Replica
import Verif.Props.Demo
/-!
# The blocks that are needed

Property C74.
-/

namespace Hyperbee

/-! ## C74 -/

/-- Whenever a block is removed, it exists and is not in use. -/
def Frugal : List SpaceEvent → St → Prop
  | [], _ => True
  | .call c :: es, s => Frugal es (callCleared c s).2
  | .clear q :: es, s => q < s.core.length ∧ ¬ Needed s.core q ∧ Frugal es (s.clear q)

theorem Pruned.clear {s : St} {d : Db} (h : Pruned s d) {q : Nat} (hl : q < s.core.length) (hn : ¬ Needed s.core q) :
    Pruned (s.clear q) d := by
  have hne : ∀ p, InTree s.core p → p ≠ q := by
    rintro p hp rfl
    exact hn (h.holds.needed.mpr hp)
  refine ⟨h.holds, fun p hp => ?_, fun p hp => ?_⟩
  · simp only [St.clear, Bool.and_eq_true, bne_iff_ne, ne_eq]
    exact ⟨hne p hp, h.tree p hp⟩
  · simp only [St.clear, Bool.and_eq_true, bne_iff_ne, ne_eq]
    simp only [St.clear] at hp
    exact ⟨by omega, h.new p hp⟩

theorem cleared_run : ∀ (es : List SpaceEvent) {s s1 : St} {d d1 : Db}, Pruned s d → Holds s1 d1 → s1.core = s.core →
    Frugal es s → (runSpace es s).1 = runReplies (spaceCalls es) s1 ∧
      (runSpace es s).2.core = (runSt (spaceCalls es) s1).core
  | [], _, _, _, _, _, _, hc, _ => ⟨rfl, hc.symm⟩
  | .clear q :: es, s, s1, d, d1, h, h1, hc, hf => cleared_run es (h.clear hf.1 hf.2.1) h1 hc hf.2.2
  | .call c :: es, s, s1, d, d1, h, h1, hc, hf => by
    obtain ⟨k1, k2, k3⟩ := h.call c
    obtain ⟨c1, c2⟩ := calls_same h.holds h1 hc c
    obtain ⟨i1, i2⟩ := cleared_run es k1 (exec_refines h1 c).2 (by rw [k3, c2]) hf
    refine ⟨?_, i2⟩
    simp only [runSpace, spaceCalls, runReplies, run]
    exact congrArg₂ List.cons (k2.trans c1) i1

/-- C74.  Remove, at any time, any blocks that the newest tree does not use: every call from then on,
also after the core is opened anew, returns what it would have returned, and appends the same
blocks. -/
theorem cleared_unseen (es : List SpaceEvent) (h : Frugal es St.init) :
    (runSpace es St.init).1 = runReplies (spaceCalls es) St.init ∧
      (runSpace es St.init).2.core = (runSt (spaceCalls es) St.init).core :=
  cleared_run es ⟨Holds.init, fun _ _ => rfl, fun _ _ => rfl⟩ Holds.init rfl h

/-- C74.  A block that is not in use is never used again. -/
theorem unused_for_ever (cs ds : List Cmd) {q : Nat} (hq : q < (runSt cs St.init).core.length)
    (hn : ¬ Needed (runSt cs St.init).core q) : ¬ Needed (runSt (cs ++ ds) St.init).core q := by
  have key : ∀ (ds : List Cmd) {s : St} {d : Db}, Holds s d → q < s.core.length → ¬ Needed s.core q →
      ¬ Needed (runSt ds s).core q := by
    intro ds
    induction ds with
    | nil => intro s d _ _ h; exact h
    | cons c ds ih =>
      intro s d h hl hn
      have h' := (exec_refines h c).2
      refine ih h' (Nat.lt_of_lt_of_le hl (core_grows h c)) fun hx => ?_
      rcases inTree_step h c (h'.needed.mp hx) with h2 | h2
      · exact hn (h.needed.mpr h2)
      · omega
  rw [runSt_append]
  exact key ds (run_holds cs) hq hn

/-- C74.  Every block in use is needed: without it, some lookup through a new handle fails, and
names it. -/
theorem needed_missed {s : St} (hs : Reachable s) {p : Nat} (hp : Needed s.core p) :
    ∃ k, (exec (.get k) ((St.open s.core).clear p)).1 = .error (.noBlockAtSeq p) := by
  obtain ⟨d, hd⟩ := hs.holds
  obtain ⟨H, t, ht, hp⟩ := hd.needed.mp hp
  obtain ⟨k, hk⟩ := missed_get ht hp
  refine ⟨k, ?_⟩
  simp only [exec, replyOf]
  cases hg : get k ((St.open s.core).clear p) with
  | mk r s' => rw [hg] at hk; simp only at hk; subst hk; rfl

/-- C74.  A database of `n` entries uses at least `n` and at most `n + n / 4 + 1` blocks, however
many were written. -/
theorem needed_few {s : St} (hs : Reachable s) {t : STree} (ht : StoresRoot s.core t) :
    ∃ l : List Nat, l.Nodup ∧ (∀ p, p ∈ l ↔ Needed s.core p) ∧ t.inorder.length ≤ l.length ∧
      l.length ≤ t.inorder.length + t.inorder.length / 4 + 1 := by
  obtain ⟨H, u, hu, rfl⟩ := hs.treeAt ht
  obtain ⟨l, h1, h2, h3, h4⟩ := hu.few
  refine ⟨l, h1, h2, ?_, ?_⟩ <;> rw [spec_inorder, List.length_map] <;> assumption

/-- C74.  A replica that holds the blocks in use, whichever others it lacks, answers like a handle that
lacks none. -/
theorem replica_needed (es : List ReplicaEvent) (c : Cmd)
    (h : ∀ q, Needed (Replica.init.run es).here.core q → (Replica.init.run es).here.io.readable q = true) :
    (exec c (Replica.init.run es).here).1 = (exec c (St.open (Replica.init.run es).here.core)).1 := by
  have hi := Replica.Inv.run es Replica.Inv.init
  obtain ⟨cs', h1, _⟩ := hi.history
  have hd : Holds (St.open (Replica.init.run es).here.core) (Db.empty.after cs') := by
    rw [h1]
    exact (run_holds cs').stored.open
  exact (sparse_same hd hi.clean.sparse rfl hi.ok (fun q hq => h q (hd.needed.mpr hq)) c).1.symm

/-! ## Finding the blocks in use -/

def joinAll : List (Option (List Nat)) → Option (List Nat)
  | [] => some []
  | none :: _ => none
  | some x :: xs => (joinAll xs).map (x ++ ·)

/-- The blocks used by node `i` of block `q`, if no path is longer than the first argument. -/
def usedBlocks (core : List Bytes) : Nat → Nat → Nat → Option (List Nat)
  | 0, _, _ => none
  | f + 1, q, i =>
    match wireBlock core q with
    | none => some []
    | some (_, ls) =>
      match ls[i]? with
      | none => some []
      | some l =>
        match pairUp l.children with
        | none => some (q :: l.keys)
        | some cs => (joinAll (cs.map fun c => usedBlocks core f c.seq c.offset)).map (q :: l.keys ++ ·)

theorem joinAll_mem {p : Nat} : ∀ {xs : List (Option (List Nat))} {l : List Nat}, joinAll xs = some l →
    (p ∈ l ↔ ∃ x, some x ∈ xs ∧ p ∈ x)
  | [], l, h => by cases h; simp
  | none :: xs, l, h => by cases h
  | some x :: xs, l, h => by
    simp only [joinAll, Option.map_eq_some_iff] at h
    obtain ⟨y, hy, rfl⟩ := h
    rw [List.mem_append, joinAll_mem hy]
    constructor
    · rintro (h | ⟨z, hz, h⟩)
      · exact ⟨x, by simp, h⟩
      · exact ⟨z, List.mem_cons_of_mem _ hz, h⟩
    · rintro ⟨z, hz, h⟩
      rcases List.mem_cons.mp hz with hz | hz
      · cases hz; exact .inl h
      · exact .inr ⟨z, hz, h⟩

theorem joinAll_some : ∀ {xs : List (Option (List Nat))} {l : List Nat}, joinAll xs = some l → ∀ x ∈ xs, x ≠ none
  | [], _, _, x, hx => by cases hx
  | none :: xs, _, h, _, _ => by cases h
  | some y :: xs, l, h, x, hx => by
    simp only [joinAll, Option.map_eq_some_iff] at h
    obtain ⟨z, hz, _⟩ := h
    rcases List.mem_cons.mp hx with rfl | hx
    · simp
    · exact joinAll_some hz x hx

theorem usedBlocks_spec {core : List Bytes} {p : Nat} : ∀ {f q i : Nat} {l : List Nat}, usedBlocks core f q i = some l →
    (Uses core p q i ↔ p ∈ l) := by
  intro f
  induction f with
  | zero => intro q i l h; cases h
  | succ f ih =>
    intro q i l h
    unfold usedBlocks at h
    cases hw : wireBlock core q with
    | none =>
      rw [hw] at h
      cases h
      constructor
      · intro hu
        cases hu <;> rename_i hb _ <;> simp_all
      · intro hp; cases hp
    | some x =>
      obtain ⟨m, ls⟩ := x
      rw [hw] at h
      simp only at h
      cases hl : ls[i]? with
      | none =>
        rw [hl] at h
        cases h
        constructor
        · intro hu
          cases hu with
          | here hb hi =>
            rw [hw] at hb; cases hb
            have := List.getElem?_eq_none_iff.mp hl
            omega
          | key hb h2 _ => rw [hw] at hb; cases hb; rw [hl] at h2; cases h2
          | child hb h2 _ _ _ => rw [hw] at hb; cases hb; rw [hl] at h2; cases h2
        · intro hp; cases hp
      | some lv =>
        rw [hl] at h
        simp only at h
        have hi := (List.getElem?_eq_some_iff.mp hl).1
        cases hc : pairUp lv.children with
        | none =>
          rw [hc] at h
          cases h
          constructor
          · intro hu
            cases hu with
            | here hb hi => simp
            | key hb h2 hm => rw [hw] at hb; cases hb; rw [hl] at h2; cases h2; simp [hm]
            | @child _ _ _ _ _ refs r hb h2 h3 _ _ =>
              rw [hw] at hb; cases hb; rw [hl] at h2; cases h2
              rw [h3, show (refs.flatMap fun r : Nat × Nat => [r.1, r.2]) =
                ((refs.map fun r => (⟨r.1, r.2⟩ : Child)).flatMap fun c => [c.seq, c.offset]) by
                  rw [List.flatMap_map], pairUp_flatMap] at hc
              cases hc
          · intro hp
            rcases List.mem_cons.mp hp with rfl | hp
            · exact .here hw hi
            · exact .key hw hl hp
        | some cs =>
          rw [hc] at h
          simp only [Option.map_eq_some_iff] at h
          obtain ⟨y, hy, rfl⟩ := h
          have hch := pairUp_inv hc
          have hch' : lv.children = (cs.map fun c => (c.seq, c.offset)).flatMap fun r => [r.1, r.2] := by
            rw [hch, List.flatMap_map]
          rw [List.mem_append, joinAll_mem hy]
          constructor
          · intro hu
            cases hu with
            | here hb hi => simp
            | key hb h2 hm => rw [hw] at hb; cases hb; rw [hl] at h2; cases h2; simp [hm]
            | @child _ _ _ _ _ refs r hb h2 h3 hm hu =>
              rw [hw] at hb; cases hb; rw [hl] at h2; cases h2
              rw [hch'] at h3
              have := flatMap_pair_inj h3
              subst this
              obtain ⟨c, hcm, rfl⟩ := List.mem_map.mp hm
              have hx : usedBlocks core f c.seq c.offset ∈ cs.map fun c => usedBlocks core f c.seq c.offset :=
                List.mem_map.mpr ⟨c, hcm, rfl⟩
              cases hz : usedBlocks core f c.seq c.offset with
              | none => exact absurd hz (joinAll_some hy _ hx)
              | some z => rw [hz] at hx; exact .inr ⟨z, hx, (ih hz).mp hu⟩
          · rintro (hp | ⟨z, hz, hp⟩)
            · rcases List.mem_cons.mp hp with rfl | hp
              · exact .here hw hi
              · exact .key hw hl hp
            · obtain ⟨c, hcm, hz⟩ := List.mem_map.mp hz
              exact .child hw hl hch' (r := (c.seq, c.offset)) (List.mem_map.mpr ⟨c, hcm, rfl⟩) ((ih hz).mpr hp)

/-- Decides `Frugal`, provided no tree is higher than `f`. -/
def frugal (f : Nat) : List SpaceEvent → St → Bool
  | [], _ => true
  | .call c :: es, s => frugal f es (callCleared c s).2
  | .clear q :: es, s => decide (q < s.core.length) &&
      (match usedBlocks s.core f (s.core.length - 1) 0 with
        | none => false
        | some l => !l.contains q) && frugal f es (s.clear q)

theorem frugal_spec (f : Nat) : ∀ (es : List SpaceEvent) (s : St), frugal f es s = true → Frugal es s
  | [], _, _ => trivial
  | .call c :: es, s, h => frugal_spec f es (callCleared c s).2 h
  | .clear q :: es, s, h => by
    simp only [frugal, Bool.and_eq_true, decide_eq_true_eq] at h
    refine ⟨h.1.1, fun hn => ?_, frugal_spec f es _ h.2⟩
    have h2 := h.1.2
    cases hu : usedBlocks s.core f (s.core.length - 1) 0 with
    | none => rw [hu] at h2; cases h2
    | some l =>
      rw [hu] at h2
      have := (usedBlocks_spec hu).mp hn.2
      simp [this] at h2

/-! ## Concrete cases -/

/-- A third of the blocks is removed, the core is opened anew, and keys are read and written. -/
def demoSpace : List SpaceEvent :=
  demoPuts.map .call ++ [.clear 0] ++ demoRest.map .call ++
    [7, 10, 11, 15, 19, 20, 23, 24, 33, 35, 36, 37, 38].map .clear ++
    [.call .reopen, .call (.get (demoKey 3)), .call (.del (demoKey 14)), .clear 3, .call (.put (demoKey 14) none),
     .call (.traverse {} (List.replicate 100 true)), .call (.createHeader none)]

example : Frugal demoSpace St.init ∧ (spaceCalls demoSpace).length = 52 :=
  ⟨frugal_spec 9 _ _ (by decide +kernel), by decide +kernel⟩

/-- After the history of `demo`, 26 of 40 blocks are in use. -/
example : (usedBlocks (runSt demo St.init).core 9 39 0).map (·.dedup.length) = some 26 ∧
    (runSt demo St.init).core.length = 40 := by decide +kernel

/-- Block 1 is in use, and without it the key written there is lost. -/
example : Needed (runSt demo St.init).core 1 ∧
    (exec (.get (demoKey 0)) ((St.open (runSt demo St.init).core).clear 1)).1 = .error (.noBlockAtSeq 1) := by
  constructor
  · have h : (usedBlocks (runSt demo St.init).core 9 ((runSt demo St.init).core.length - 1) 0).map (·.contains 1) =
        some true := by decide +kernel
    obtain ⟨l, h1, h2⟩ := Option.map_eq_some_iff.mp h
    exact ⟨by decide +kernel, (usedBlocks_spec h1).mpr (by simpa using h2)⟩
  · decide +kernel

/-- Block 7 was in use before the key written there was overwritten. -/
example : ¬ Needed (runSt demo St.init).core 7 := by
  rintro ⟨_, h⟩
  have h0 : (usedBlocks (runSt demo St.init).core 9 ((runSt demo St.init).core.length - 1) 0).map (·.contains 7) =
      some false := by decide +kernel
  obtain ⟨l, h1, h2⟩ := Option.map_eq_some_iff.mp h0
  simp only [List.contains_eq_mem, decide_eq_false_iff_not] at h2
  exact h2 ((usedBlocks_spec h1).mp h)

/-- A replica of the whole history that lacks 14 of its 40 blocks, and misses none. -/
example :
    let es := demo.map .write ++ [.learn 40, .hold fun q => !([0, 7, 10, 11, 15, 19, 20, 23, 24, 33, 35, 36, 37, 38].contains q)]
    (∀ q, Needed (Replica.init.run es).here.core q → (Replica.init.run es).here.io.readable q = true) ∧
      lacking (Replica.init.run es).here = 14 := by
  intro es
  refine ⟨?_, by decide +kernel⟩
  rintro q ⟨_, h⟩
  have h0 : (match usedBlocks (Replica.init.run es).here.core 9 ((Replica.init.run es).here.core.length - 1) 0 with
      | some l => l.all (Replica.init.run es).here.io.readable
      | none => false) = true := by decide +kernel
  split at h0
  · rename_i l hl
    exact List.all_eq_true.mp h0 q ((usedBlocks_spec hl).mp h)
  · cases h0

end Hyperbee
