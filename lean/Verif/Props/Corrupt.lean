import Verif.Proof.Blame
import Verif.Props.Demo
import Verif.Props.Structure
/-!
# Cores this library did not write

Property C43.  It is false: see `corrupt_panics` and `corrupt_loops`.  What does hold is that a
reader fails in no other ways than the four of `Blame`, each caused by a particular defect.
-/

namespace Hyperbee

/-- Calls that only read. -/
def Cmd.readsOnly : Cmd → Bool
  | .version | .get _ | .traverse _ _ => true
  | _ => false

/-- A handle opened on a core, of which the blocks in `ρ` can be read, after some reads. -/
def reader (core : List Bytes) (ρ : Nat → Bool) (cs : List Cmd) : St :=
  runSt cs { St.open core with io := ⟨ρ, true⟩ }

theorem reader_browsed {cs : List Cmd} (hcs : ∀ c ∈ cs, c.readsOnly = true) : ∀ {s : St}, Clean s → Browsed s (runSt cs s) := by
  induction cs with
  | nil => intro s hs; exact ⟨rfl, rfl, hs⟩
  | cons c cs ih =>
    intro s hs
    have h1 : Browsed s (exec c s).2 := by
      have hc := hcs c (by simp)
      cases c with
      | version => exact ⟨rfl, rfl, hs⟩
      | get k => exact hs.exec_get k
      | traverse b sched => exact hs.exec_traverse b sched
      | _ => simp [Cmd.readsOnly] at hc
    have h2 := ih (fun c hc => hcs c (List.mem_cons_of_mem _ hc)) h1.clean
    exact ⟨h2.core.trans h1.core, h2.io.trans h1.io, h2.clean⟩

theorem reader_clean (core : List Bytes) (ρ : Nat → Bool) {cs : List Cmd} (hcs : ∀ c ∈ cs, c.readsOnly = true) :
    Clean (reader core ρ cs) ∧ (reader core ρ cs).core = core := by
  have := reader_browsed hcs (Clean.open core ⟨ρ, true⟩)
  exact ⟨this.clean, this.core⟩

/-! ## The claim is false -/

/-- A block with the given nodes. -/
def forged (ls : List Level) : Bytes := encodeNode ⟨encodeYolo ls, [1], none⟩

/-- Cores on which a lookup panics, one for each of the three places where it can.  (The second and
third panic at the same place: the newest block has no node, or a child is not there.) -/
theorem corrupt_panics :
    (exec (.get [5]) (St.open [encodeHeader ⟨PROTOCOL, none⟩, forged [⟨[1], [1]⟩]])).1 =
      .error (.panic "blocks.rs:188 level.children[i + 1]") ∧
    (exec (.get [5]) (St.open [encodeHeader ⟨PROTOCOL, none⟩, forged []])).1 =
      .error (.panic "blocks.rs:224 offset *should* always point to a real node") ∧
    (exec (.get [5]) (St.open [encodeHeader ⟨PROTOCOL, none⟩, forged [⟨[1], [1, 0, 1, 7]⟩]])).1 =
      .error (.panic "blocks.rs:224 offset *should* always point to a real node") ∧
    (exec (.get [5]) (St.open [encodeHeader ⟨PROTOCOL, none⟩, forged [⟨[1], [1, 0]⟩]])).1 =
      .error (.panic "lib.rs:137 children[index]") := by
  decide +kernel

/-- A core whose root is its own child. -/
def looping : List Bytes := [encodeHeader ⟨PROTOCOL, none⟩, forged [⟨[], [1, 0]⟩]]

/-- The descent of a lookup on it: whatever the bound on its rounds, they are used up. -/
theorem corrupt_loops (k : LimitValue) : ∃ root s, getRoot false (St.open looping) = (.ok (some root), s) ∧
    ∀ rounds path, (nearestLoop k rounds root path s).1 = .error .diverge := by
  refine ⟨0, (getRoot false (St.open looping)).2, Prod.ext (by decide +kernel) rfl, ?_⟩
  generalize hs : (getRoot false (St.open looping)).2 = s
  have hn : s.heap[0]? = some ⟨[], [⟨1, 0⟩]⟩ := by rw [← hs]; decide +kernel
  have he : ∃ e, s.cache 1 = some e ∧ e.nodes = [0] := by
    rw [← hs]
    exact ⟨⟨[0], [1], none⟩, by decide +kernel, rfl⟩
  obtain ⟨e, he, hen⟩ := he
  have hg : getChild 0 0 s = (.ok 0, s) := by
    unfold getChild
    rw [bind_ok (readNode_some hn)]
    have hb : blocksGet 1 s = (.ok e, s) := by
      rcases blocksGet_cases 1 s with ⟨e', h1, h2⟩ | ⟨h1, _⟩
      · rw [he] at h1; cases h1; exact h2
      · rw [he] at h1; cases h1
    show (blocksGet 1 >>= fun block => getTreeNode block 0) s = _
    rw [bind_ok hb]
    simp [getTreeNode, hen]
  intro rounds
  induction rounds with
  | zero => intro path; rfl
  | succ rounds ih =>
    intro path
    unfold nearestLoop
    have hi : getIndexOfKey 0 k s = (.ok (none, 0), s) := by
      unfold getIndexOfKey
      rw [bind_ok (readNode_some hn)]
      rfl
    have hl : isLeaf 0 s = (.ok false, s) := by
      unfold isLeaf
      rw [bind_ok (readNode_some hn)]
      rfl
    rw [bind_ok hi]
    simp only
    rw [bind_ok hl]
    simp only [Option.isSome_none, Bool.or_self, Bool.false_eq_true, if_false]
    rw [bind_ok hg]
    exact ih _

/-- C43 is false. -/
theorem corrupt_read_false : ¬ ∀ (core : List Bytes) (k : Bytes), ∀ site, (exec (.get k) (St.open core)).1 ≠ .error (.panic site) :=
  fun h => h _ _ _ corrupt_panics.1

/-! ## What a reader can count on -/

/-- C43 for lookups.  Missing from the claim: the failures of `Blame` other than its first two are
not errors. -/
theorem corrupt_get_partial (core : List Bytes) (ρ : Nat → Bool) (cs : List Cmd) (hcs : ∀ c ∈ cs, c.readsOnly = true) (k : Bytes) :
    (∃ r, (exec (.get k) (reader core ρ cs)).1 = .got r) ∨
      ∃ e, (exec (.get k) (reader core ρ cs)).1 = .error e ∧ Blame core e := by
  obtain ⟨hc, hcore⟩ := reader_clean core ρ hcs
  have := get_fair hc k
  unfold Fair at this
  simp only [exec, replyOf]
  cases hg : get k (reader core ρ cs) with
  | mk r s' =>
    rw [hg] at this
    cases r with
    | ok a => exact .inl ⟨a, rfl⟩
    | error e => exact .inr ⟨e, rfl, hcore ▸ this.2⟩

/-- C43 for traversals.  Missing from the claim, besides the above: a stream that has yielded an
error from building an iterator panics when polled again. -/
theorem corrupt_traverse_partial (core : List Bytes) (ρ : Nat → Bool) (cs : List Cmd) (hcs : ∀ c ∈ cs, c.readsOnly = true)
    (b : TraverseConfigBuilder) (sched : List Bool) :
    (∃ xs fin, (exec (.traverse b sched) (reader core ρ cs)).1 = .items xs fin) ∨
    (∃ e, (exec (.traverse b sched) (reader core ρ cs)).1 = .error e ∧
      (Blame core e ∨ (e = .noRoot ∧ core.length ≤ 1) ∨ (e = .traverseConfigBuilder ∧ validateBuilder b = false))) ∨
    ∃ sched' xs e' fin, sched' <+: sched ∧ (exec (.traverse b sched') (reader core ρ cs)).1 = .items xs fin ∧
      xs.getLast? = some (.error (.buildIteratorInTraverse e')) := by
  obtain ⟨hc, hcore⟩ := reader_clean core ρ hcs
  simp only [exec, replyOf, traverseSession]
  cases hb : b.build with
  | error e =>
    right; left
    refine ⟨e, rfl, .inr (.inr ?_)⟩
    unfold TraverseConfigBuilder.build at hb
    split at hb
    · cases hb
    · rename_i hv
      cases hb
      exact ⟨rfl, by simpa using hv⟩
  | ok conf =>
    simp only
    by_cases hl : core.length ≤ 1
    · right; left
      refine ⟨.noRoot, ?_, .inr (.inl ⟨rfl, hl⟩)⟩
      have hr : getRoot false (reader core ρ cs) = (.ok none, reader core ρ cs) := by
        unfold getRoot
        rw [bind_ok (version_run _), if_pos (by rw [hcore]; exact hl), if_neg (by simp)]
        rfl
      have ht : traverse conf (reader core ρ cs) = (.error .noRoot, reader core ρ cs) := by
        unfold traverse
        rw [bind_ok hr]
        rfl
      unfold collect
      simp only [bind_run, ht]
    · have hf := traverse_fair hc (by rw [hcore]; omega) conf
      unfold Fair at hf
      unfold collect
      cases ht : traverse conf (reader core ρ cs) with
      | mk r s1 =>
        rw [ht] at hf
        cases r with
        | error e =>
          right; left
          refine ⟨e, ?_, .inl (hcore ▸ hf.2)⟩
          simp only [bind_run, ht]
        | ok fs =>
          obtain ⟨l1, hne, hfs⟩ := hf
          have hd := drive_fair sched fs (l1.clean hc) hne hfs
          cases hdr : drive pure sched fs s1 with
          | mk r2 s2 =>
            cases r2 with
            | ok p =>
              left
              obtain ⟨xs, fin⟩ := p
              exact ⟨xs, fin.isNone, by simp only [bind_run, ht, hdr, pure_run]⟩
            | error e =>
              right
              rcases hd e s2 hdr with h | ⟨sch, xs, e', fin, s'', g1, g2, g3⟩
              · left
                refine ⟨e, by simp only [bind_run, ht, hdr], .inl ?_⟩
                rw [← hcore, ← l1.core]; exact h
              · right
                exact ⟨sch, xs, e', fin.isNone, g1, by simp only [bind_run, ht, g2, pure_run], g3⟩

/-- The height of the tree, likewise. -/
theorem corrupt_height_partial (core : List Bytes) (ρ : Nat → Bool) (cs : List Cmd) (hcs : ∀ c ∈ cs, c.readsOnly = true) :
    (∃ n s', height (reader core ρ cs) = (.ok n, s')) ∨
      ∃ e s', height (reader core ρ cs) = (.error e, s') ∧ Blame core e := by
  obtain ⟨hc, hcore⟩ := reader_clean core ρ hcs
  have := height_fair hc
  unfold Fair at this
  cases hg : height (reader core ρ cs) with
  | mk r s' =>
    rw [hg] at this
    cases r with
    | ok a => exact .inl ⟨a, s', rfl⟩
    | error e => exact .inr ⟨e, s', rfl, hcore ▸ this.2⟩

/-- On a core without those defects, whatever else it holds, a lookup returns a result or an error. -/
theorem sound_get_partial (core : List Bytes) (h1 : ¬ OddChildren core) (h2 : ¬ NoSuchNode core) (h3 : ¬ TooFewChildren core)
    (h4 : ¬ CyclicRefs core) (ρ : Nat → Bool) (cs : List Cmd) (hcs : ∀ c ∈ cs, c.readsOnly = true) (k : Bytes) :
    (∃ r, (exec (.get k) (reader core ρ cs)).1 = .got r) ∨ (exec (.get k) (reader core ρ cs)).1 = .error .decode ∨
      ∃ q, (exec (.get k) (reader core ρ cs)).1 = .error (.noBlockAtSeq q) := by
  rcases corrupt_get_partial core ρ cs hcs k with h | ⟨e, he, hb⟩
  · exact .inl h
  · right
    cases hb with
    | decode => exact .inl he
    | missing q => exact .inr ⟨q, he⟩
    | odd h => exact (h1 h).elim
    | node h => exact (h2 h).elim
    | few h => exact (h3 h).elim
    | cycle h => exact (h4 h).elim

/-- The cores this library writes have none of the defects, nor do they after undecodable blocks
have been put in the place of some. -/
theorem written_sound {s : St} (hs : Reachable s) (h2 : 2 ≤ s.core.length) {core : List Bytes} (hl : core.length = s.core.length)
    (hd : ∀ q, wireBlock core q = none ∨ (q ≠ 0 ∧ wireBlock core q = wireBlock s.core q)) :
    ¬ OddChildren core ∧ ¬ NoSuchNode core ∧ ¬ TooFewChildren core ∧ ¬ CyclicRefs core := by
  have key : ∀ {q m ls}, wireBlock core q = some (m, ls) → 0 < ls.length ∧ SoundBlock s.core q ls := by
    intro q m ls h
    rcases hd q with h' | ⟨h0, h'⟩
    · rw [h'] at h; cases h
    · rw [h'] at h
      have hlt : q < s.core.length := by
        by_contra hc
        unfold wireBlock at h
        rw [List.getElem?_eq_none (by omega)] at h
        cases h
      obtain ⟨m', ls', w1, w2, w3⟩ := hs.sound (by omega) hlt
      rw [h] at w1
      cases w1
      exact ⟨w2, w3⟩
  have hev : ∀ refs : List (Nat × Nat), (refs.flatMap fun r => [r.1, r.2]).length = 2 * refs.length := by
    intro refs
    induction refs with
    | nil => rfl
    | cons c cs ih => simp at ih ⊢; omega
  have hget : ∀ (refs : List (Nat × Nat)) (j p o : Nat), (refs.flatMap fun r => [r.1, r.2])[2 * j]? = some p →
      (refs.flatMap fun r => [r.1, r.2])[2 * j + 1]? = some o → (p, o) ∈ refs := by
    intro refs
    induction refs with
    | nil => intro j p o h; simp at h
    | cons c cs ih =>
      intro j p o ha hb
      cases j with
      | zero => simp at ha hb; subst ha; subst hb; simp
      | succ j =>
        rw [show 2 * (j + 1) = 2 * j + 2 by omega] at ha hb
        rw [show 2 * j + 2 + 1 = 2 * j + 1 + 2 by omega] at hb
        exact List.mem_cons_of_mem _ (ih j p o (by simpa using ha) (by simpa using hb))
  have href : ∀ {x y}, RefersTo core x y → (y.1 < x.1 ∨ (y.1 = x.1 ∧ x.2 < y.2)) ∧
      ∃ m' ls', wireBlock s.core y.1 = some (m', ls') ∧ y.2 < ls'.length := by
    rintro ⟨q, i⟩ ⟨p, o⟩ ⟨m, ls, l, j, w, hl, ha, hb⟩
    obtain ⟨refs, hr, hall⟩ := (key w).2.children i l hl
    rw [hr] at ha hb
    exact hall _ (hget refs j p o ha hb)
  refine ⟨?_, ?_, ?_, ?_⟩
  · rintro ⟨q, m, ls, l, w, hl, ho⟩
    obtain ⟨i, hi⟩ := List.getElem?_of_mem hl
    obtain ⟨refs, hr, _⟩ := (key w).2.children i l hi
    rw [hr, hev] at ho
    omega
  · rintro (⟨m, w⟩ | ⟨x, y, m, ls, hr, w, hle⟩)
    · have := (key w).1; simp at this
    · obtain ⟨_, m', ls', w', hlt⟩ := href hr
      rcases hd y.1 with h' | ⟨h0, h'⟩
      · rw [h'] at w; cases w
      · rw [h', w'] at w
        cases w
        omega
  · rintro ⟨q, m, ls, l, w, hl, hne, hlt⟩
    rcases (key w).2.count l hl with h | h
    · exact hne h
    · omega
  · rintro ⟨x, hx⟩
    have : ∀ {x y}, Relation.TransGen (RefersTo core) x y → y.1 < x.1 ∨ (y.1 = x.1 ∧ x.2 < y.2) := by
      intro x y h
      induction h with
      | single h => exact (href h).1
      | tail _ h ih =>
        have := (href h).1
        omega
    have := this hx
    omega

/-- A database of nine keys with the third block overwritten by garbage has none of the defects;
the lookup that needs the block reports it, others still work. -/
example : let core := (runSt (ascending.take 9) St.init).core.set 3 [255]
    (¬ OddChildren core ∧ ¬ NoSuchNode core ∧ ¬ TooFewChildren core ∧ ¬ CyclicRefs core) ∧
    (ascending.take 9).map (fun c => match c with
      | .put k _ => (match (exec (.get k) (reader core (fun _ => true) [])).1 with
        | .error .decode => 1
        | .got (some _) => 2
        | _ => 0)
      | _ => 0) = [2, 2, 1, 1, 2, 2, 2, 2, 2] := by
  refine ⟨written_sound ⟨ascending.take 9, rfl⟩ (by decide +kernel) (by simp) (fun q => ?_), by decide +kernel⟩
  by_cases h0 : q = 0
  · subst h0; left; decide +kernel
  · by_cases h3 : q = 3
    · subst h3; left; decide +kernel
    · right
      refine ⟨h0, ?_⟩
      unfold wireBlock
      rw [List.getElem?_set_ne (by omega)]

end Hyperbee
