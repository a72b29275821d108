import Verif.Props.Trouble
import Verif.Props.Prefixed
import Verif.Proof.SubTrouble
/-!
# C95: sub-databases when things go wrong
-/

namespace Hyperbee

/-- What may become of a call on the database itself or through a sub-database when `ts` go wrong: a call
other than a traversal of a sub-database is one on the database itself, with prefix and separator before
the key; a traversal of a sub-database changes nothing. -/
inductive BecameVia (d : Db) (x : Option Prefixed × Cmd) (ts : List (Option Trouble)) : Option Reply → Db → Prop where
  | call {r : Option Reply} {d' : Db} : (∀ p b sched, x ≠ (some p, .traverse b sched)) → Became d (expandVia x) ts r d' →
      BecameVia d x ts r d'
  | walk {p : Prefixed} {b : TraverseConfigBuilder} {sched : List Bool} {r : Option Reply} : x = (some p, .traverse b sched) →
      SubWalked d p b ts r → BecameVia d x ts r d

/-- The same for calls one after another, each on the database the one before it left. -/
inductive AllBecameVia : Db → List ((Option Prefixed × Cmd) × List (Option Trouble)) → List (Option Reply) → Db → Prop where
  | nil {d : Db} : AllBecameVia d [] [] d
  | cons {d d' d'' : Db} {x : Option Prefixed × Cmd} {ts : List (Option Trouble)}
      {xs : List ((Option Prefixed × Cmd) × List (Option Trouble))} {r : Option Reply} {rs : List (Option Reply)} :
      BecameVia d x ts r d' → AllBecameVia d' xs rs d'' → AllBecameVia d ((x, ts) :: xs) (r :: rs) d''

/-- The call is no traversal of a sub-database with bounds that cross. -/
def NotCrossed (x : Option Prefixed × Cmd) : Prop :=
  ∀ p b sched conf, x = (some p, .traverse b sched) → b.build = .ok conf → Uncrossed p conf

/-- Other calls are calls on the database itself. -/
theorem execTroubledVia_call {x : Option Prefixed × Cmd} (hx : ∀ p b sched, x ≠ (some p, .traverse b sched))
    (ts : List (Option Trouble)) (s : St) : execTroubledVia ts x s = execTroubled ts (expandVia x) s := by
  obtain ⟨via, c⟩ := x
  cases via with
  | none => cases c <;> rfl
  | some p =>
    cases c with
    | traverse b sched => exact absurd rfl (hx p b sched)
    | _ => rfl

theorem listing_passed {s : St} {d : Db} {H : Nat} {t : T} (ht : TreeAt s.core H t) (hcon : Contents s.core t.flat d)
    (p : Prefixed) {conf : TraverseConfig} (hS : (p.boundedConf conf).Sound) :
    PassedOver d p conf ((listing s.core (p.boundedConf conf) t).map (kvOf s.core)) := by
  have hl := listing_isListing ht hcon hS
  refine ⟨?_, fun e => ?_⟩
  · have h1 := hl.1
    rw [boundedConf_reversed] at h1
    exact h1
  · rw [hl.2 e, boundedConf_range]

/-- One call. -/
theorem execTroubledVia_cases {s : St} {d : Db} (h : Holds s d) (x : Option Prefixed × Cmd) (hx : NotCrossed x)
    (ts : List (Option Trouble)) :
    ∃ o, BecameVia d x ts (execTroubledVia ts x s).1 (d.and o) ∧ (execTroubledVia ts x s).2.core = coreAnd o s ∧
      Holds (renewed (execTroubledVia ts x s).1 (execTroubledVia ts x s).2) (d.and o) := by
  by_cases hsub : ∃ p b sched, x = (some p, .traverse b sched)
  · obtain ⟨p, b, sched, rfl⟩ := hsub
    have fin : ∀ {r : Option Reply} {t : St}, execTroubledVia ts (some p, .traverse b sched) s = (r, t) → Ext s t →
        SubWalked d p b ts r → ∃ o, BecameVia d (some p, .traverse b sched) ts (execTroubledVia ts (some p, .traverse b sched) s).1 (d.and o) ∧
          (execTroubledVia ts (some p, .traverse b sched) s).2.core = coreAnd o s ∧
          Holds (renewed (execTroubledVia ts (some p, .traverse b sched) s).1
            (execTroubledVia ts (some p, .traverse b sched) s).2) (d.and o) := by
      intro r t e hext hw
      rw [e]
      exact ⟨none, .walk rfl hw, hext.core, renewed_holds _ (h.ext hext)⟩
    rcases troubled_noApp (noApp_subTraverse p b sched) ts s with ⟨h1, t, h2, h3⟩ | h1
    · have e : execTroubledVia ts (some p, .traverse b sched) s = (none, t) := by
        unfold execTroubledVia
        show (match (Prog.subExec p (.traverse b sched)).troubled ts s with
          | (some (.ok r), t) => (some r, t) | (some (.error e), t) => (some (.error e), t) | (none, t) => (none, t)) = _
        rw [h2]
      rw [e]
      exact ⟨none, .walk rfl (.failed (.dropped h1)), h3, renewed_stored rfl (h3 ▸ h.stored)⟩
    · have hrep : execTroubledVia ts (some p, .traverse b sched) s =
          (some (match ((Prog.subTraverse p b sched).flaky (readsOf ts) s).1 with
            | .ok r => .items r.1 r.2 | .error e => .error e), ((Prog.subTraverse p b sched).flaky (readsOf ts) s).2) := by
        unfold execTroubledVia
        show (match (Prog.subExec p (.traverse b sched)).troubled ts s with
          | (some (.ok r), t) => (some r, t) | (some (.error e), t) => (some (.error e), t) | (none, t) => (none, t)) = _
        rw [h1]
        unfold Prog.subExec
        dsimp only
        rw [replyOf_flaky]
        rcases (Prog.subTraverse p b sched).flaky (readsOf ts) s with ⟨_ | _, _⟩ <;> rfl
      by_cases hr : ∃ f, some (.read f) ∈ ts
      · obtain ⟨f, hr⟩ := hr
        cases hb : b.build with
        | error e =>
          have e1 : (Prog.subTraverse p b sched).flaky (readsOf ts) s = (.error e, s) := by
            unfold Prog.subTraverse
            simp only [hb]
            rfl
          rw [e1] at hrep
          exact fin hrep (Ext.refl h.wf) (.refused hb)
        | ok conf =>
          rcases h.store with hbare | ⟨H, t, ht, hco, hcon⟩
          · have e1 : (Prog.subTraverse p b sched).flaky (readsOf ts) s = (.error .noRoot, s) := subTraverse_bare hbare.1 hb _
            rw [e1] at hrep
            exact fin hrep (Ext.refl h.wf) (.empty hb (by rw [h.ver]; exact hbare.1))
          · have hS := bounded_sound p hb (hx p b sched conf rfl hb)
            obtain ⟨e1, g⟩ := subTraverse_flakes ht h.wf hco p hb hS sched (readsOf ts)
            have hpass := listing_passed ht hcon p hS
            have hgap : ∀ {ys : List (Except Err KeyValueData)}, (∀ e, .error e ∈ ys → Skipped e ∨ Broken e) →
                ∀ e, .error e ∈ ys → GapErr e ∧ ∃ f, some (.read f) ∈ ts := by
              intro ys hy e he
              refine ⟨?_, f, hr⟩
              rcases hy e he with h | ⟨e, h, rfl⟩
              · exact h.gapErr
              · exact .start h
            have hlong : ∀ {ys : List (Except Err KeyValueData)}, (∀ y ∈ ys, ¬ p.tooShort y) →
                ∀ e, .ok e ∈ ys → p.len ≤ e.key.length := fun hy e he =>
              Nat.not_lt.mp fun hlt => hy _ he ⟨e, rfl, hlt⟩
            refine fin hrep e1 ?_
            rcases g with ⟨e, g1, g2⟩ | ⟨ys, fin, rest, g1, g2, g3, g4, g5⟩ | ⟨ys, e, rest, g1, g2, g3, g4, g5⟩ | g1
            · rw [g2]
              exact .failed (.read hr g1)
            · rw [g1]
              exact .items hb hpass g2 (hgap g3) (hlong g4) g5
            · rw [g1]
              exact .short hb hpass g2 (hgap g3) (hlong g4) g5
            · rw [g1]
              exact .resumed hr
      · have hn : (Prog.subTraverse p b sched).flaky (readsOf ts) s = (Prog.subTraverse p b sched).run s :=
          flaky_none _ _ _ fun f hf => hr ⟨f, readsOf_mem hf⟩
        have hrun : execTroubledVia ts (some p, .traverse b sched) s =
            (some (p.exec (.traverse b sched) s).1, (p.exec (.traverse b sched) s).2) := by
          rw [hrep, hn, does_subTraverse]
          show _ = (some (Hyperbee.replyOf (p.traverseSession b sched) _ s).1, (Hyperbee.replyOf (p.traverseSession b sched) _ s).2)
          unfold Hyperbee.replyOf
          rcases p.traverseSession b sched s with ⟨_ | _, _⟩ <;> rfl
        refine fin hrun (p.traverse_ext h b sched) ?_
        cases hb : b.build with
        | error e =>
          have : (p.exec (.traverse b sched) s).1 = .error e := by
            show (Hyperbee.replyOf (p.traverseSession b sched) _ s).1 = _
            unfold Hyperbee.replyOf Prefixed.traverseSession
            rw [hb]
            rfl
          rw [this]
          exact .refused hb
        | ok conf =>
          rcases Nat.lt_or_ge 1 s.core.length with h2 | h2
          · obtain ⟨all, N, a1, a2, a3⟩ := sub_exact h h2 p hb (hx p b sched conf rfl hb)
            have hpass : PassedOver d p conf all := by
              refine ⟨a1, fun e => (a2 e).trans (and_congr_left fun _ => ?_)⟩
              have hg : (exec (.get e.key) s).1 = .got (d.map e.key) := (exec_refines h (.get e.key)).1
              rw [hg, Db.entry_eq]
              cases hm : d.map e.key with
              | none => simp
              | some z =>
                simp only [Option.map_some, Option.some.injEq, Reply.got.injEq]
                constructor
                · intro h; rw [h]
                · intro h; rw [← h]
            have hacc : ∀ (xs rest : List KeyValueData), Account (xs.map .ok) (xs ++ rest) rest := by
              intro xs rest
              induction xs with
              | nil => exact .rest _
              | cons x xs ih => exact .ok ih
            obtain ⟨xs, rest, b1, b2, b3⟩ := a3 sched
            rcases b3 with ⟨fin, b3, b4, _⟩ | ⟨b3, e, rest', b4, b5⟩
            · have hm : (xs.map fun e => Except.ok (ε := Err) { e with key := e.key.drop (p.pre.length + p.sep.length) }) =
                  (xs.map .ok).map p.cutItem := by
                rw [List.map_map]; rfl
              rw [b3, hm]
              exact .items hb hpass (b1 ▸ hacc xs rest) (by simp) (by simpa [Prefixed.len] using b2) b4
            · rw [b3]
              refine .short (ys := xs.map .ok) (e := e) (rest := rest') hb hpass ?_ (by simp) (by simpa [Prefixed.len] using b2) b5
              have := hacc (xs ++ [e]) rest'
              rw [List.map_append] at this
              rw [b1, b4, show xs ++ e :: rest' = xs ++ [e] ++ rest' by simp]
              exact this
          · have hc : p.exec (.traverse b sched) s = (.error .noRoot, s) := by
              have := subTraverse_bare (p := p) (sched := sched) h2 hb []
              rw [flaky_none _ _ _ (by simp), does_subTraverse] at this
              show Hyperbee.replyOf (p.traverseSession b sched) _ s = _
              unfold Hyperbee.replyOf
              rw [this]
            rw [hc]
            exact .empty hb (by rw [h.ver]; exact h2)
  · have hsub' : ∀ p b sched, x ≠ (some p, .traverse b sched) := fun p b sched e => hsub ⟨p, b, sched, e⟩
    rw [execTroubledVia_call hsub']
    obtain ⟨o, h1, h2, h3⟩ := execTroubled_cases h (expandVia x) ts
    exact ⟨o, .call hsub' h1, h2, h3⟩

theorem World.All.cautiousVia : ∀ (xs : List (Nat × (Option Prefixed × Cmd) × List (Option Trouble))) {w : World} {d : Db},
    (∀ x ∈ xs, NotCrossed x.2.1) → w.All d →
    ∃ d', AllBecameVia d (xs.map (·.2)) (World.runCautiousVia xs w).1 d' ∧ (World.runCautiousVia xs w).2.All d' := by
  intro xs
  induction xs with
  | nil => intro w d _ h; exact ⟨d, .nil, h⟩
  | cons x xs ih =>
    intro w d hx h
    obtain ⟨i, x, ts⟩ := x
    obtain ⟨o, h1, h2, h3⟩ := execTroubledVia_cases (h i) x (hx _ (List.mem_cons_self ..)) ts
    have hall : (w.set i (renewed (execTroubledVia ts x (w.at i)).1 (execTroubledVia ts x (w.at i)).2)).All (d.and o) := by
      intro j
      by_cases hj : j = i
      · subst hj; rw [w.set_at j h3.io]; exact h3
      · rw [w.set_other _ hj]
        have hcore : (renewed (execTroubledVia ts x (w.at i)).1 (execTroubledVia ts x (w.at i)).2).core = coreAnd o (w.at i) := by
          rw [← h2]
          unfold renewed
          split <;> rfl
        rw [hcore]
        cases o with
        | none => exact h j
        | some c => exact (h j).follow (h i) rfl c
    obtain ⟨d', i1, i2⟩ := ih (fun y hy => hx y (List.mem_cons_of_mem _ hy)) hall
    exact ⟨d', .cons h1 i1, i2⟩

/-- C95: clients that take turns, each with a handle of its own, which it opens anew after each of its calls
that failed, and that call the database itself or any of its sub-databases: each call did what it does, or
failed without effect, or took effect with the error of its append returned, or created the header; and a
traversal of a sub-database accounts for every entry it passes over. -/
theorem cautious_sub_clients (before : List (Nat × Cmd)) (xs : List (Nat × (Option Prefixed × Cmd) × List (Option Trouble)))
    (hx : ∀ x ∈ xs, NotCrossed x.2.1) :
    let w := (World.run before World.init).2
    ∃ d', AllBecameVia (Db.empty.after (before.map (·.2))) (xs.map (·.2)) (World.runCautiousVia xs w).1 d' ∧
      ∀ later, d'.Answers (later.map (·.2)) (World.run later (World.runCautiousVia xs w).2).1 := by
  intro w
  obtain ⟨d', h1, h2⟩ := World.All.cautiousVia xs hx (World.All.run before World.All.init)
  refine ⟨d', h1, fun later => ?_⟩
  rw [(World.run_same later h2 (h2 0) rfl).1]
  exact (run_refines _ (h2 0)).1

theorem AllBecameVia.map {d d' : Db} {xs : List ((Option Prefixed × Cmd) × List (Option Trouble))} {rs : List (Option Reply)}
    {k : Bytes} (h : AllBecameVia d xs rs d') (hx : ∀ x ∈ xs, ¬ (expandVia x.1).mayChange k) : d'.map k = d.map k := by
  induction h with
  | nil => rfl
  | cons h1 _ ih =>
    rw [ih fun y hy => hx y (List.mem_cons_of_mem _ hy)]
    cases h1 with
    | call _ h1 => exact h1.map (hx _ (List.mem_cons_self ..))
    | walk => rfl

/-- C95: whatever goes wrong with calls about other keys, what is stored under a key of a sub-database stays. -/
theorem trouble_elsewhere (before : List (Nat × Cmd)) (xs : List (Nat × (Option Prefixed × Cmd) × List (Option Trouble)))
    (hx : ∀ x ∈ xs, NotCrossed x.2.1) {p : Prefixed} {k : Bytes} (hk : ∀ x ∈ xs, ¬ (expandVia x.2.1).mayChange (p.pre ++ p.sep ++ k))
    (i j : Nat) :
    let w := (World.run before World.init).2
    (p.exec (.get k) ((World.runCautiousVia xs w).2.at j)).1 = (p.exec (.get k) (w.at i)).1 := by
  intro w
  have hw : w.All _ := World.All.run before World.All.init
  obtain ⟨d', h1, h2⟩ := World.All.cautiousVia xs hx hw
  have hm := h1.map (k := p.pre ++ p.sep ++ k) (by
    intro y hy
    obtain ⟨x, hx, rfl⟩ := List.mem_map.mp hy
    exact hk x hx)
  have g : ∀ {s : St} {d : Db}, Holds s d → (p.exec (.get k) s).1 = .got (d.map (p.pre ++ p.sep ++ k)) :=
    fun h => (exec_refines h (.get (p.pre ++ p.sep ++ k))).1
  rw [g (h2 j), g (hw i), hm]

/-- Between two keys given, bounds do not cross, and what is passed over are the entries of the sub-database in
the range; so no key is too short. -/
theorem passes_two {p : Prefixed} {conf : TraverseConfig} {lo hi : Bytes} (hlo : conf.minValue = .finite lo)
    (hhi : conf.maxValue = .finite hi) : Uncrossed p conf ∧
    ∀ k, Passes p conf k ↔ ∃ y, k = p.pre ++ p.sep ++ y ∧ InRange conf y := by
  refine ⟨⟨fun _ i _ h => ?_, fun i h => ?_⟩, fun k => ?_⟩
  · rw [hhi] at h; cases h
  · rw [hlo] at h; cases h
  · simp only [Passes, InRange, AboveMin, BelowMax, hlo, hhi]
    constructor
    · rintro ⟨h3, h4⟩
      obtain ⟨y, rfl⟩ := between_prefix (p.pre ++ p.sep) (h3.imp id And.right) (h4.imp id And.right)
      simp only [append_lt_iff, append_eq_iff] at h3 h4
      exact ⟨y, rfl, h3, h4⟩
    · rintro ⟨y, rfl, h3, h4⟩
      simp only [append_lt_iff, append_eq_iff]
      exact ⟨h3, h4⟩

/-- Ten entries put through a sub-database, and what comes then. -/
def demoSubTroubles : List (Nat × (Option Prefixed × Cmd) × List (Option Trouble)) :=
  (List.range 10).map (fun i => (0, (some ⟨[1], [0]⟩, .put [UInt8.ofNat i] none), [])) ++
  [(1, (some ⟨[1], [0]⟩, .traverse {} (List.replicate 8 true)), List.replicate 14 none ++ [some (.read .missing)]),
   (0, (some ⟨[2], [0]⟩, .put [7] none), [none, some .dropped]),
   (1, (some ⟨[1], [0]⟩, .traverse { minValue := some (.finite [2]), maxValue := some (.finite [5]) } (List.replicate 30 true)), []),
   (1, (none, .put [1] none), []),
   (0, (some ⟨[1], [0]⟩, .traverse {} (List.replicate 30 true)), []),
   (0, (some ⟨[1], [0]⟩, .get [9]), [])]

/-- A gap, a put that was dropped, a range, and a key too short to be cut. -/
example : (World.runCautiousVia demoSubTroubles World.init).1.drop 10 =
    [some (.items [.error (.getChildInTraverse (.noBlockAtSeq 9)), .ok ⟨5, [4], none⟩] false), none,
      some (.items [.ok ⟨3, [2], none⟩, .ok ⟨4, [3], none⟩, .ok ⟨5, [4], none⟩, .ok ⟨6, [5], none⟩] true),
      some (.put none 11), some (.error (.panic "prefixed.rs:171 key.drain(..len_drain)")), some (.got (some (10, none)))] := by
  decide +kernel

/-- The hypotheses of `cautious_sub_clients` and `trouble_elsewhere`. -/
example : (∀ x ∈ demoSubTroubles, NotCrossed x.2.1) ∧
    ∀ x ∈ demoSubTroubles, ¬ (expandVia x.2.1).mayChange ([3] ++ [0] ++ [5]) := by
  have hnc : ∀ (p : Prefixed) (c : Cmd), (∀ b sched, c ≠ .traverse b sched) → NotCrossed (some p, c) := by
    intro p c hc q b sched conf h
    cases h
    exact absurd rfl (hc b sched)
  constructor
  · intro x hx
    simp only [demoSubTroubles, List.mem_append, List.mem_map, List.mem_cons, List.not_mem_nil, or_false] at hx
    rcases hx with ⟨i, _, rfl⟩ | rfl | rfl | rfl | rfl | rfl | rfl
    · exact hnc _ _ nofun
    · intro p b sched conf h hb
      cases h
      refine ⟨fun lo i h => ?_, fun i _ h => ?_⟩
      · rw [(build_fields hb).1] at h; cases h
      · rw [(build_fields hb).2.2.1] at h; cases h
    · exact hnc _ _ nofun
    · intro p b sched conf h hb
      cases h
      exact (passes_two (build_fields hb).1 (build_fields hb).2.2.1).1
    · intro p b sched conf h; cases h
    · intro p b sched conf h hb
      cases h
      refine ⟨fun lo i h => ?_, fun i _ h => ?_⟩
      · rw [(build_fields hb).1] at h; cases h
      · rw [(build_fields hb).2.2.1] at h; cases h
    · exact hnc _ _ nofun
  · intro x hx
    simp only [demoSubTroubles, List.mem_append, List.mem_map, List.mem_cons, List.not_mem_nil, or_false] at hx
    rcases hx with ⟨i, _, rfl⟩ | rfl | rfl | rfl | rfl | rfl | rfl <;>
      simp [expandVia, Prefixed.expand, Cmd.mayChange]

end Hyperbee
