import Verif.Proof.Reach
import Verif.Proof.Debug
import Verif.Props.Demo
/-!
# Properties of traversals
-/

namespace Hyperbee

/-- `xs` lists what `get` finds in the interval of `conf`, each key once, in the order `conf` asks for. -/
def Lists (s : St) (conf : TraverseConfig) (xs : List KeyValueData) : Prop :=
  (if conf.reversed then xs.reverse else xs).Pairwise (fun a b => a.key < b.key) ∧
  ∀ e, e ∈ xs ↔ (exec (.get e.key) s).1 = .got (some (e.seq, e.value)) ∧ InRange conf e.key

theorem Holds.get_iff {s : St} {d : Db} (h : Holds s d) (e : KeyValueData) :
    (exec (.get e.key) s).1 = .got (some (e.seq, e.value)) ↔ d.entry e.key = some e := by
  have := (exec_refines h (.get e.key)).1
  simp only [Db.Returns] at this
  rw [this, Db.entry]
  constructor
  · intro hx
    injection hx with hx
    rw [hx]; rfl
  · intro hx
    cases hm : d.map e.key with
    | none => rw [hm] at hx; cases hx
    | some p =>
      rw [hm] at hx
      simp only [Option.map_some, Option.some.injEq] at hx
      rw [← hx]

theorem Holds.lists {s : St} {d : Db} (h : Holds s d) {conf : TraverseConfig} {xs : List KeyValueData} :
    Lists s conf xs ↔ IsListing d conf xs := by
  unfold Lists IsListing
  refine and_congr_right fun _ => forall_congr' fun e => ?_
  rw [h.get_iff]

theorem sorted_ext : ∀ {l l' : List KeyValueData}, l.Pairwise (fun a b => a.key < b.key) →
    l'.Pairwise (fun a b => a.key < b.key) → (∀ e, e ∈ l ↔ e ∈ l') → l = l' := by
  intro l
  induction l with
  | nil =>
    intro l' _ _ h
    cases l' with
    | nil => rfl
    | cons a l' => exact absurd ((h a).mpr (by simp)) (by simp)
  | cons a l ih =>
    intro l' h1 h2 h
    cases l' with
    | nil => exact absurd ((h a).mp (by simp)) (by simp)
    | cons a' l' =>
      obtain ⟨p1, p2⟩ := List.pairwise_cons.mp h1
      obtain ⟨q1, q2⟩ := List.pairwise_cons.mp h2
      have irr : ∀ k : Bytes, ¬ k < k := fun k => List.lt_irrefl k
      have tr : ∀ {a b c : Bytes}, a < b → b < c → a < c := fun h1 h2 => List.lt_trans h1 h2
      have e : a = a' := by
        rcases List.mem_cons.mp ((h a).mp (by simp)) with e | m
        · exact e
        · rcases List.mem_cons.mp ((h a').mpr (by simp)) with e | m'
          · exact e.symm
          · exact absurd (tr (q1 a m) (p1 a' m')) (irr _)
      subst e
      congr 1
      refine ih p2 q2 fun e => ⟨fun m => ?_, fun m => ?_⟩
      · rcases List.mem_cons.mp ((h e).mp (List.mem_cons_of_mem _ m)) with e' | m'
        · subst e'; exact absurd (p1 _ m) (irr _)
        · exact m'
      · rcases List.mem_cons.mp ((h e).mpr (List.mem_cons_of_mem _ m)) with e' | m'
        · subst e'; exact absurd (q1 _ m) (irr _)
        · exact m'

/-- A listing is determined by what it has to list. -/
theorem Lists.unique {s : St} {conf : TraverseConfig} {xs ys : List KeyValueData} (h1 : Lists s conf xs)
    (h2 : Lists s conf ys) : xs = ys := by
  have hm : ∀ e, e ∈ xs ↔ e ∈ ys := fun e => (h1.2 e).trans (h2.2 e).symm
  have s1 := h1.1
  have s2 := h2.1
  cases hr : conf.reversed with
  | false => rw [hr] at s1 s2; exact sorted_ext s1 s2 hm
  | true =>
    rw [hr] at s1 s2
    have := sorted_ext s1 s2 (fun e => by simp only [if_true, List.mem_reverse]; exact hm e)
    exact List.reverse_injective this

/-- The configuration without limits. -/
theorem default_range (k : Bytes) : InRange .default k := ⟨trivial, trivial⟩

/-- Everything about the replies of a traversal: in every reachable state with a root there is one
list of the stored entries in the interval, and whatever the schedule of polls, the traversal
yields a prefix of it without errors, ends only after all of it, and has ended after
`5 + 4 * (number of stored entries)` polls that found their read ready. -/
theorem traversal {s : St} (hs : Reachable s) (h2 : 2 ≤ s.core.length) {b : TraverseConfigBuilder}
    {conf : TraverseConfig} (hb : b.build = .ok conf) :
    ∃ all full, Lists s .default all ∧ Lists s conf full ∧ ∀ sched, ∃ xs fin,
      (exec (.traverse b sched) s).1 = .items (xs.map .ok) fin ∧ xs <+: full ∧ (fin = true → xs = full) ∧
      (5 + 4 * all.length ≤ sched.count true → fin = true) := by
  obtain ⟨d, hd⟩ := hs.holds
  rcases hd.store with hbare | ⟨H, t, ht, hc, hcon⟩
  · have := hbare.1; omega
  · have hS := build_sound hb
    have hl := listing_isListing ht hcon hS
    have hl0 := listing_isListing ht hcon default_sound
    have hlen : (listing s.core .default t).length = t.flat.length := by
      unfold listing
      rw [List.filter_eq_self.mpr (fun q _ => by
        rw [show TraverseConfig.default.inBounds (keyOf s.core q) = true from rfl])]
      rfl
    refine ⟨_, _, hd.lists.mpr hl0, hd.lists.mpr hl, fun sched => ?_⟩
    obtain ⟨xs, rest, fin, s', h1, e1, ho, hfin⟩ := collect_run ht hd.wf hc hS sched
    refine ⟨xs.map (kvOf s.core), fin.isNone, ?_, ?_, ?_, ?_⟩
    · show (replyOf (traverseSession b sched) _ s).1 = _
      unfold replyOf traverseSession
      rw [hb]
      simp only []
      rw [bind_ok h1]
      simp [List.map_map, Function.comp_def, pure, M.pure]
    · rw [ho, List.map_append]; exact List.prefix_append _ _
    · intro hf
      cases fin with
      | some fs => cases hf
      | none => simp only at hfin; rw [ho, hfin, List.append_nil]
    · intro hcount
      cases fin with
      | none => rfl
      | some fs =>
        obtain ⟨fuel', hst, hle⟩ := hfin
        have := hst.pos
        have := ht.good.cost_root
        rw [List.length_map, hlen] at hcount
        omega

/-- The demonstration history leads to a state with 26 entries in a tree of several levels. -/
example : Reachable (runSt demo St.init) ∧ 2 ≤ (runSt demo St.init).core.length ∧
    (runReplies [.traverse { minValue := some (.finite (demoKey 3)), maxValue := some (.finite (demoKey 9)) }
      (List.replicate 60 true)] (runSt demo St.init)).all (fun r => r matches .items (_ :: _ :: _ :: _) true) = true :=
  ⟨demo_reachable, by decide +kernel, by decide +kernel⟩

/-! ## C09 -/

/-- A full traversal yields every entry once, in order, and then ends: with enough polls its reply
is exactly the list of all entries `get` finds. -/
theorem full_traversal {s : St} (hs : Reachable s) (h2 : 2 ≤ s.core.length) :
    ∃ all : List KeyValueData, all.Pairwise (fun a b => a.key < b.key) ∧
      (∀ e, e ∈ all ↔ (exec (.get e.key) s).1 = .got (some (e.seq, e.value))) ∧
      ∀ sched, 5 + 4 * all.length ≤ sched.count true →
        (exec (.traverse {} sched) s).1 = .items (all.map .ok) true := by
  obtain ⟨all, full, ha, hf, h⟩ := traversal hs h2 (b := {}) (conf := .default) rfl
  obtain rfl := ha.unique hf
  refine ⟨all, ha.1, fun e => (ha.2 e).trans (and_iff_left (default_range _)), fun sched hc => ?_⟩
  obtain ⟨xs, fin, h1, _, h3, h4⟩ := h sched
  have hfin := h4 hc
  rw [h1, h3 hfin, hfin]

example : 2 ≤ (runSt demo St.init).core.length ∧
    (match (exec (.traverse {} (List.replicate 120 true)) (runSt demo St.init)).1 with
      | .items xs true => decide (xs.length = 25)
      | _ => false) = true := by decide +kernel

/-! ## C10 -/

/-- A bounded traversal yields exactly the entries in the interval, in order, and then ends; the
number of polls it may need depends on the number of all entries. -/
theorem range_traversal {s : St} (hs : Reachable s) (h2 : 2 ≤ s.core.length) {b : TraverseConfigBuilder}
    {conf : TraverseConfig} (hb : b.build = .ok conf) :
    ∃ (full : List KeyValueData) (N : Nat), (if conf.reversed then full.reverse else full).Pairwise (fun a b => a.key < b.key) ∧
      (∀ e, e ∈ full ↔ (exec (.get e.key) s).1 = .got (some (e.seq, e.value)) ∧ InRange conf e.key) ∧
      ∀ sched, N ≤ sched.count true → (exec (.traverse b sched) s).1 = .items (full.map .ok) true := by
  obtain ⟨all, full, ha, hf, h⟩ := traversal hs h2 hb
  refine ⟨full, 5 + 4 * all.length, hf.1, hf.2, fun sched hc => ?_⟩
  obtain ⟨xs, fin, h1, _, h3, h4⟩ := h sched
  have hfin := h4 hc
  rw [h1, h3 hfin, hfin]

/-- The interval of a configuration is the one its builder was given: fields left out mean no limit,
an inclusive end, and the forward direction. -/
theorem build_fields {b : TraverseConfigBuilder} {conf : TraverseConfig} (hb : b.build = .ok conf) :
    conf.minValue = b.minValue.getD (.infinite .negative) ∧ conf.minInclusive = b.minInclusive.getD true ∧
    conf.maxValue = b.maxValue.getD (.infinite .positive) ∧ conf.maxInclusive = b.maxInclusive.getD true ∧
    conf.reversed = b.reversed.getD false := by
  unfold TraverseConfigBuilder.build at hb
  split at hb
  · cases hb; exact ⟨rfl, rfl, rfl, rfl, rfl⟩
  · cases hb

/-- Exclusive and inclusive ends, one of them not a stored key (8 was deleted). -/
example : (match (exec (.traverse ⟨some (.finite (demoKey 2)), some false, some (.finite (demoKey 8)), none, some true⟩
        (List.replicate 120 true)) (runSt demo St.init)).1 with
      | .items xs true => decide (xs.map (fun x => x.toOption.map (·.key)) =
          [some (demoKey 7), some (demoKey 5), some (demoKey 4), some (demoKey 3)])
      | _ => false) = true := by decide +kernel

/-! ## C11 -/

/-- The traversal in the other direction yields the same entries in the opposite order. -/
theorem reversed_traversal {s : St} (hs : Reachable s) (h2 : 2 ≤ s.core.length) (b : TraverseConfigBuilder)
    {sched sched' : List Bool} {xs ys : List (Except Err KeyValueData)}
    (hx : (exec (.traverse { b with reversed := some false } sched) s).1 = .items xs true)
    (hy : (exec (.traverse { b with reversed := some true } sched') s).1 = .items ys true) :
    ys = xs.reverse := by
  have hbuild : ∀ r, ∀ sc x, (exec (.traverse { b with reversed := some r } sc) s).1 = .items x true →
      ∃ conf, ({ b with reversed := some r } : TraverseConfigBuilder).build = .ok conf := by
    intro r sc x h
    cases hb : ({ b with reversed := some r } : TraverseConfigBuilder).build with
    | ok conf => exact ⟨conf, rfl⟩
    | error e =>
      exfalso
      have : (exec (.traverse { b with reversed := some r } sc) s).1 = .error e := by
        show (replyOf (traverseSession _ _) _ s).1 = _
        unfold replyOf traverseSession
        rw [hb]
        rfl
      rw [this] at h; cases h
  obtain ⟨c1, hb1⟩ := hbuild _ _ _ hx
  obtain ⟨c2, hb2⟩ := hbuild _ _ _ hy
  obtain ⟨_, f1, _, l1, t1⟩ := traversal hs h2 hb1
  obtain ⟨_, f2, _, l2, t2⟩ := traversal hs h2 hb2
  obtain ⟨x', fx, ex, _, fx', _⟩ := t1 sched
  obtain ⟨y', fy, ey, _, fy', _⟩ := t2 sched'
  rw [hx] at ex
  rw [hy] at ey
  injection ex with ex1 ex2
  injection ey with ey1 ey2
  obtain rfl := fx' ex2.symm
  obtain rfl := fy' ey2.symm
  obtain ⟨p1, p2, p3, p4, p5⟩ := build_fields hb1
  obtain ⟨q1, q2, q3, q4, q5⟩ := build_fields hb2
  have hr : ∀ k, InRange c1 k ↔ InRange c2 k := by
    intro k; unfold InRange; rw [p1, p2, p3, p4, q1, q2, q3, q4]
  have r1 : c1.reversed = false := by rw [p5]; rfl
  have r2 : c2.reversed = true := by rw [q5]; rfl
  have s1 := l1.1
  have s2 := l2.1
  rw [r1] at s1
  rw [r2] at s2
  have := sorted_ext s1 s2 (fun e => by
    simp only [if_true, List.mem_reverse]
    show e ∈ x' ↔ _
    rw [l1.2, l2.2, hr])
  have hxy : y' = x'.reverse := by
    have h3 : x' = y'.reverse := this
    rw [h3, List.reverse_reverse]
  rw [ey1, ex1, hxy, List.map_reverse]

example : (match (exec (.traverse { maxValue := some (.finite (demoKey 9)), reversed := some true } (List.replicate 120 true))
        (runSt demo St.init)).1, (exec (.traverse { maxValue := some (.finite (demoKey 9)), reversed := some false }
          (List.replicate 120 true)) (runSt demo St.init)).1 with
      | .items (_ :: _ :: _ :: _) true, .items (_ :: _ :: _ :: _) true => true
      | _, _ => false) = true := by decide +kernel

/-! ## C12 -/

/-- Whatever the schedule, a prefix of the same list, without errors; it is complete when the stream
has ended, and the stream has ended once enough polls found their read ready. -/
theorem schedule_free {s : St} (hs : Reachable s) (h2 : 2 ≤ s.core.length) {b : TraverseConfigBuilder}
    {conf : TraverseConfig} (hb : b.build = .ok conf) :
    ∃ full N, ∀ sched, ∃ xs fin, (exec (.traverse b sched) s).1 = .items (xs.map .ok) fin ∧ xs <+: full ∧
      (fin = true → xs = full) ∧ (N ≤ sched.count true → fin = true) := by
  obtain ⟨all, full, _, _, h⟩ := traversal hs h2 hb
  exact ⟨full, _, h⟩

/-- No poll of a stream that has not ended fails, and none that returns `Pending` forgets its task:
it has woken it, or it waits for a read (which then was not ready, and nothing has changed). -/
theorem never_forgotten {s : St} (hs : Reachable s) (h2 : 2 ≤ s.core.length) {b : TraverseConfigBuilder}
    {conf : TraverseConfig} (hb : b.build = .ok conf) (sched : List Bool) {xs : List (Except Err KeyValueData)}
    {fs : List Frame} {s' : St} (hrun : collect sched conf s = (.ok (xs, some fs), s')) (ready : Bool) :
    ∃ p fs' s'', poll ready fs s' = (.ok (p, fs'), s'') ∧
      ∀ woken waiting, p = .pending woken waiting →
        (woken = true ∨ waiting = true) ∧ (waiting = true → ready = false ∧ fs' = fs ∧ s'' = s') := by
  obtain ⟨d, hd⟩ := hs.holds
  rcases hd.store with hbare | ⟨H, t, ht, hc, hcon⟩
  · have := hbare.1; omega
  obtain ⟨ys, rest, fin, s1, h1, e1, ho, hfin⟩ := collect_run ht hd.wf hc (build_sound hb) sched
  rw [hrun] at h1
  injection h1 with h1 h1'
  injection h1 with h1
  injection h1 with _ h1
  subst h1 h1'
  obtain ⟨fuel', hst, _⟩ := hfin
  obtain ⟨p, fs', s'', hp, _, hpost⟩ := poll_run (build_sound hb) hst e1.wf ready
  refine ⟨p, fs', s'', hp, ?_⟩
  rintro woken waiting rfl
  refine ⟨hpost.1, fun hw => ?_⟩
  have := hpost.2
  rw [if_pos hw] at this
  exact this

/-- A schedule in which reads are often not ready, still long enough. -/
example : (match (collect [true, false, true, false, false, true, true, false] .default (runSt demo St.init)).1 with
      | .ok (_, some _) => true
      | _ => false) = true ∧
    (match (exec (.traverse {} ((List.replicate 120 [false, true]).flatten)) (runSt demo St.init)).1 with
      | .items xs true => decide (xs.length = 25)
      | _ => false) = true := by decide +kernel

/-! ## C13 -/

/-- Before the first write, a traversal fails for want of a root (a configuration the builder
rejects fails on its own account). -/
theorem unwritten_traversal (cs : List Cmd) (h : effects cs (runReplies cs St.init) = []) (b : TraverseConfigBuilder)
    {conf : TraverseConfig} (hb : b.build = .ok conf) (sched : List Bool) :
    (exec (.traverse b sched) (runSt cs St.init)).1 = .error .noRoot := by
  have hlen := logOf_length cs
  have h0 : logOf cs = [] := by simp [logOf, h]
  rw [h0] at hlen
  have hh := run_holds cs
  have hr := (exec_refines hh (.traverse b sched)).1
  simp only [Db.Returns, hb] at hr
  rw [if_pos (by rw [hh.ver]; simp at hlen; omega)] at hr
  exact hr

/-- A denied compare-and-swap put and an explicit header are not writes. -/
example : effects [.putCas [1] none (fun _ _ => false), .createHeader none, .get [1]]
    (runReplies [.putCas [1] none (fun _ _ => false), .createHeader none, .get [1]] St.init) = [] ∧
    ((runSt [.putCas [1] none (fun _ _ => false), .createHeader none, .get [1]] St.init).core).length = 1 := by
  decide +kernel

/-- Once every key has been deleted a traversal succeeds and yields nothing. -/
theorem emptied_traversal (cs : List Cmd) (h : effects cs (runReplies cs St.init) ≠ [])
    (hnone : ∀ k, (exec (.get k) (runSt cs St.init)).1 = .got none) (b : TraverseConfigBuilder)
    {conf : TraverseConfig} (hb : b.build = .ok conf) (sched : List Bool) :
    ∃ fin, (exec (.traverse b sched) (runSt cs St.init)).1 = .items [] fin ∧ (5 ≤ sched.count true → fin = true) := by
  have hlen := logOf_length cs
  have h2 : 2 ≤ (runSt cs St.init).core.length := by
    have : 0 < (logOf cs).length := by
      have : (effects cs (runReplies cs St.init)).length ≠ 0 := by simpa using h
      simp only [logOf]
      first | simp | skip
      omega
    omega
  obtain ⟨all, full, ha, hf, ht⟩ := traversal ⟨cs, rfl⟩ h2 hb
  have nil : ∀ {c : TraverseConfig} {l : List KeyValueData}, Lists (runSt cs St.init) c l → l = [] := by
    intro c l hl
    cases l with
    | nil => rfl
    | cons e l =>
      have := ((hl.2 e).mp (by simp)).1
      rw [hnone] at this; cases this
  obtain rfl := nil ha
  obtain rfl := nil hf
  obtain ⟨xs, fin, h1, h3, _, h4⟩ := ht sched
  obtain rfl : xs = [] := List.prefix_nil.mp h3
  exact ⟨fin, h1, fun hc => h4 (by simpa using hc)⟩

example : effects demoEmptied (runReplies demoEmptied St.init) ≠ [] ∧
    (exec (.traverse {} (List.replicate 5 true)) (runSt demoEmptied St.init)).1 = .items [] true := by
  decide +kernel

/-! ## C33: a stream is a snapshot -/

/-- What the entries are at a moment, and what a stream created then yields after a write. -/
def snapshotWitness : List (Except Err KeyValueData) × List (Except Err KeyValueData) :=
  let s := runSt [.put [1] none] St.init
  let before := match (collect (List.replicate 20 true) .default s).1 with
    | .ok (xs, _) => xs
    | .error _ => []
  let after := match traverse .default s with
    | (.ok fs, s1) =>
      match (drive pure (List.replicate 20 true) fs (exec (.put [2] none) s1).2).1 with
      | .ok (xs, _) => xs
      | .error _ => []
    | (.error _, _) => []
  (before, after)

/-- False of the code: a stream created before a put through the same handle yields the new key,
because the cached root it holds is changed in place. -/
theorem not_snapshot : snapshotWitness =
    ([.ok ⟨1, [1], none⟩], [.ok ⟨1, [1], none⟩, .ok ⟨2, [2], none⟩]) := by decide +kernel

/-- What holds: a stream is a snapshot as long as the handle it was created through makes no write,
whatever the others write, and whatever it reads, between any two polls.

Missing from the full statement: writes through the handle itself (`not_snapshot`). -/
theorem snapshot_partial (cs : List (Nat × Cmd)) (h : Nat) {b : TraverseConfigBuilder} {conf : TraverseConfig}
    (hb : b.build = .ok conf) (h2 : 2 ≤ (World.run cs World.init).2.core.length) :
    ∃ full N fs s', Lists ((World.run cs World.init).2.at h) conf full ∧
      traverse conf ((World.run cs World.init).2.at h) = (.ok fs, s') ∧
      ∀ acts, (∀ i c, Act.call i c ∈ acts → i = h → c.reads = true) →
        ∃ xs fin, (World.watch h acts fs ((World.run cs World.init).2.set h s')).1 = .ok (xs.map .ok, fin) ∧
          xs <+: full ∧ (fin = none → xs = full) ∧
          (N ≤ (acts.countP fun a => a matches .poll true) → fin = none) := by
  have hw := World.All.run cs World.All.init
  generalize (World.run cs World.init).2 = w at hw h2
  have hd := hw h
  generalize Db.empty.after (cs.map (·.2)) = d at hw hd
  rcases hd.store with hbare | ⟨H, t, ht, hc, hcon⟩
  · have := hbare.1
    have e : (w.at h).core = w.core := rfl
    rw [e] at this; omega
  obtain ⟨fs, s', h1, e1, hst⟩ := traverse_run ht hd.wf hc conf
  refine ⟨(listing w.core conf t).map (kvOf w.core), t.cost, fs, s',
    hd.lists.mpr (listing_isListing ht hcon (build_sound hb)), h1, fun acts hq => ?_⟩
  have hat : (w.set h s').at h = s' := w.set_at h (e1.holds hd).io
  obtain ⟨xs, rest, fin, r1, r2, r3, r4⟩ := watch_run (c := w.core) (build_sound hb) h acts (w.set h s') d fs
    (listing w.core conf t) t.cost (hw.set e1) (by rw [show (w.set h s').core = s'.core from rfl, e1.core]; exact List.prefix_refl _)
    (fun q hq => by
      have : q ∈ t.flat := by
        have := (List.mem_filter.mp hq).1
        unfold dirFlat at this
        split at this <;> simpa using this
      obtain ⟨bk, hbk⟩ := ht.dfd q this
      exact blockAt_lt hbk)
    (by rw [hat]; exact hst)
    (by
      rw [List.all_eq_true]
      intro a ha
      cases a with
      | poll r => rfl
      | call i c =>
        by_cases hi : i = h
        · have := hq i c ha hi; simp [quiet, hi, this]
        · simp [quiet, hi])
  refine ⟨xs.map (kvOf w.core), fin, ?_, ?_, ?_, r4⟩
  · rw [r1, List.map_map]; rfl
  · rw [r2, List.map_append]; exact List.prefix_append _ _
  · intro hf; rw [r2, r3 hf, List.append_nil]

/-- Handle 1 overwrites and deletes what handle 0 is reading. -/
example : 2 ≤ (World.run (demo.map fun c => (1, c)) World.init).2.core.length ∧
    (match traverse .default ((World.run (demo.map fun c => (1, c)) World.init).2.at 0) with
      | (.ok fs, s') =>
        (match (World.watch 0 ([.poll true, .call 1 (.put (demoKey 1) none), .poll true, .call 0 (.get (demoKey 1)),
            .call 1 (.del (demoKey 2)), .call 2 (.put (demoKey 200) none)] ++ List.replicate 120 (.poll true)) fs
            ((World.run (demo.map fun c => (1, c)) World.init).2.set 0 s')).1 with
          | .ok (xs, none) => decide (xs.length = 25)
          | _ => false)
      | _ => false) = true := by decide +kernel

/-! ## C48: polling again after the end -/

/-- The last poll of a stream: why it returned `None`. -/
theorem poll_none {ready : Bool} {f : Frame} {rest fs' : List Frame} {woken : Bool} {s s' : St}
    (h : poll ready (f :: rest) s = (.ok (.ready none woken, fs'), s')) :
    (f.nextKey = none ∧ f.nextChild = none ∧ rest = [] ∧ fs' = [f] ∧ f.iter = some [] ∧ f.nkc.isSome = true) ∨
    (∃ i kv, f.nextKey = some (i, false) ∧ getKeyValue f.root i s = (.ok kv, s') ∧
      f.config.inBounds kv.key = false ∧ fs' = { f with nextKey := some (i, true) } :: rest) := by
  unfold poll at h
  cases hk : f.nextKey with
  | some p =>
    obtain ⟨i, done⟩ := p
    rw [hk] at h
    simp only [] at h
    split at h
    · cases h
    split at h
    · cases h
    rename_i hd _
    simp only [bind, M.bind, tryResult] at h
    right
    cases hg : getKeyValue f.root i s with
    | mk r s1 =>
      rw [hg] at h
      cases r with
      | ok kv =>
        simp only [] at h
        split at h
        · rename_i hin
          cases h
          refine ⟨i, kv, ?_, hg, hin, rfl⟩
          cases done
          · rfl
          · exact absurd rfl hd
        · cases h
      | error e => cases e <;> cases h
  | none =>
    rw [hk] at h
    simp only [] at h
    cases hc : f.nextChild with
    | some i =>
      rw [hc] at h
      simp only [] at h
      split at h
      · cases h
      simp only [bind, M.bind, tryResult] at h
      cases hg : getChild f.root i s with
      | mk r s1 =>
        rw [hg] at h
        cases r with
        | ok kv => cases h
        | error e => cases e <;> cases h
    | none =>
      rw [hc] at h
      simp only [] at h
      cases rest with
      | cons c cs =>
        simp only [bind, M.bind] at h
        cases hg : poll ready (c :: cs) s with
        | mk r s1 =>
          rw [hg] at h
          cases r with
          | error e => cases h
          | ok p =>
            obtain ⟨p, fs1⟩ := p
            cases p with
            | pending _ _ => cases h
            | ready it _ => cases it <;> cases h
      | nil =>
        simp only [] at h
        left
        unfold pollSetup at h
        cases hn : f.nkc with
        | none =>
          rw [hn] at h
          simp only [] at h
          split at h
          · cases h
          split at h
          · cases h
          simp only [bind, M.bind] at h
          cases hg : readNode f.root s with
          | mk r s1 => rw [hg] at h; cases r <;> cases h
        | some x =>
          obtain ⟨x1, x2⟩ := x
          rw [hn] at h
          simp only [] at h
          cases hi : f.iter with
          | none =>
            rw [hi] at h
            simp only [] at h
            cases hf : f.iterFut with
            | none => rw [hf] at h; cases h
            | some done =>
              rw [hf] at h
              cases done with
              | true => cases h
              | false =>
                simp only [] at h
                split at h
                · cases h
                simp only [bind, M.bind, tryResult] at h
                cases hg : makeChildKeyIndexIter f.config f.root x1 x2 s with
                | mk r s1 =>
                  rw [hg] at h
                  cases r with
                  | ok kv => cases h
                  | error e => cases e <;> cases h
          | some is =>
            rw [hi] at h
            cases is with
            | nil =>
              simp only [] at h
              cases h
              exact ⟨rfl, rfl, rfl, rfl, rfl, rfl⟩
            | cons j is =>
              simp only [] at h
              split at h <;> cases h

/-- False of the code: a bounded traversal of three keys, polled once more after its end, panics. -/
theorem repoll_panics : (match collect (List.replicate 20 true) ⟨.infinite .negative, true, .finite [1], true, false⟩
      (runSt [.put [1] none, .put [2] none, .put [3] none] St.init) with
    | (.ok (xs, fin), _) => decide (xs.length = 1 ∧ fin = none)
    | _ => false) = true ∧
    (match traverse ⟨.infinite .negative, true, .finite [1], true, false⟩
        (runSt [.put [1] none, .put [2] none, .put [3] none] St.init) with
      | (.ok fs, s) =>
        (match drive pure (List.replicate 7 true) fs s with
          | (.ok (_, some fs), s) =>
            (match poll true fs s with
              | (.ok (.ready none _, fs), s) =>
                (match poll true fs s with
                  | (.error (.panic _), _) => true
                  | _ => false)
              | _ => false)
          | _ => false)
      | _ => false) = true := by decide +kernel

/-- There is nothing in between: a stream that has returned `None` either returns `None` to every
further poll, or panics at the first. -/
theorem repoll_dichotomy {ready : Bool} {fs fs' : List Frame} {woken : Bool} {s s' : St}
    (h : poll ready fs s = (.ok (.ready none woken, fs'), s')) :
    (∀ (ready' : Bool) (s₃ : St), poll ready' fs' s₃ = (.ok (.ready none true, fs'), s₃)) ∨
    (∀ (ready' : Bool) (s₃ : St), ∃ site, poll ready' fs' s₃ = (.error (.panic site), s₃)) := by
  cases fs with
  | nil => cases h
  | cons f rst =>
    rcases poll_none h with ⟨p1, p2, p3, p4, p5, p6⟩ | ⟨i, kv, p1, p2, p3, p4⟩
    · subst p4
      left
      intro r' s3
      unfold poll
      simp only [p1, p2]
      unfold pollSetup
      obtain ⟨x, hx⟩ := Option.isSome_iff_exists.mp p6
      obtain ⟨x1, x2⟩ := x
      simp only [hx, p5]
      rfl
    · subst p4
      right
      intro r' s3
      exact ⟨_, rfl⟩

theorem mem_listing_default {c : List Bytes} {t : T} {q : Nat} (h : q ∈ t.flat) : q ∈ listing c .default t := by
  unfold listing
  rw [List.mem_filter]
  refine ⟨h, ?_⟩
  rfl

/-- What holds: when every stored key lies in the interval (so in particular without limits), a
stream that has ended can be polled again any number of times, whatever else happens, and keeps
returning `None`.

Missing from the full statement: streams that end on reaching a key outside the interval
(`repoll_panics`). -/
theorem repoll_partial {s : St} (hs : Reachable s) (h2 : 2 ≤ s.core.length) {b : TraverseConfigBuilder}
    {conf : TraverseConfig} (hb : b.build = .ok conf)
    (hin : ∀ k e, (exec (.get k) s).1 = .got (some e) → InRange conf k)
    (sched : List Bool) {xs : List (Except Err KeyValueData)} {fs fs' : List Frame} {s' s'' : St}
    (hrun : collect sched conf s = (.ok (xs, some fs), s')) {ready woken : Bool}
    (hend : poll ready fs s' = (.ok (.ready none woken, fs'), s'')) :
    ∀ (ready' : Bool) (s₃ : St), poll ready' fs' s₃ = (.ok (.ready none true, fs'), s₃) := by
  obtain ⟨d, hd⟩ := hs.holds
  rcases hd.store with hbare | ⟨H, t, ht, hc, hcon⟩
  · have := hbare.1; omega
  have hS := build_sound hb
  have hall : ∀ q ∈ t.flat, conf.inBounds (keyOf s.core q) = true := by
    intro q hq
    rw [hS]
    have hl := (listing_isListing ht hcon default_sound).2 (kvOf s.core q)
    have hm : kvOf s.core q ∈ (listing s.core .default t).map (kvOf s.core) :=
      List.mem_map_of_mem (mem_listing_default hq)
    exact hin (kvOf s.core q).key ((kvOf s.core q).seq, (kvOf s.core q).value)
      ((hd.get_iff (kvOf s.core q)).mpr (hl.mp hm).1)
  obtain ⟨ys, rest, fin, s1, h1, e1, ho, hfin⟩ := collect_run ht hd.wf hc hS sched
  rw [hrun] at h1
  injection h1 with h1 h1'
  injection h1 with h1
  injection h1 with _ h1
  subst h1 h1'
  obtain ⟨fuel', hst, _⟩ := hfin
  cases fs with
  | nil => cases hst
  | cons f rst =>
    rcases poll_none hend with ⟨p1, p2, p3, p4, p5, p6⟩ | ⟨i, kv, p1, p2, p3, p4⟩
    · subst p4
      intro r' s3
      unfold poll
      simp only [p1, p2]
      unfold pollSetup
      obtain ⟨x, hx⟩ := Option.isSome_iff_exists.mp p6
      obtain ⟨x1, x2⟩ := x
      simp only [hx, p5]
      rfl
    · exfalso
      cases hst with
      | setup v a h1 h2 h3 h4 h5 => rw [h2] at p1; cases p1
      | iter v a h1 h2 h3 h4 h5 h6 => rw [h2] at p1; cases p1
      | child v a h1 h2 h3 h4 h5 ht h6 => rw [h2] at p1; cases p1
      | sub v a h1 h2 h3 h4 h5 h6 _ => rw [h2] at p1; cases p1
      | @key _ h _ j is x v a h1 h2 h3 h4 h5 h6 =>
        rw [h2] at p1
        cases p1
        have hv := h6.valid _ (List.mem_cons_self ..)
        rw [if_neg (by omega), show (2 * i + 1) / 2 = i by omega] at hv
        have hkeys : t.node.keys = t.keys := by cases t; rfl
        obtain ⟨bk, hbk⟩ := v.dfdKeys t.keys[i] (List.getElem_mem hv)
        obtain ⟨s2, h7, _⟩ := getKeyValue_run e1.wf (v.heap a) (i := i) (q := t.keys[i])
          (by rw [hkeys]; exact List.getElem?_eq_getElem hv) hbk
        rw [p2] at h7
        cases h7
        simp only [] at p3
        rw [h1, e1.core, hall _ (by rw [T.flat_eq]; exact mem_flatL (.inl (List.getElem_mem hv)))] at p3
        cases p3

/-- The stream of all 25 keys, just before its last poll, which returns `None`. -/
example : (match collect (List.replicate 82 true) .default (runSt demo St.init) with
    | (.ok (_, some fs), s') =>
      (match poll true fs s' with
        | (.ok (.ready none _, _), _) => true
        | _ => false)
    | _ => false) = true := by decide +kernel

end Hyperbee
