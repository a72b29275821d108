import Verif.Proof.Sub
import Verif.SpecSub
import Verif.Proof.Handles
import Verif.Props.Traversal
import Verif.Props.Contents
import Verif.Props.Config
/-!
# Properties of sub-databases
-/

namespace Hyperbee

/-- A state some history of calls leads to, each made on the database itself or through one of any
number of sub-databases. -/
def Mixed (s : St) : Prop := ∃ xs, s = (runVia xs St.init).2

theorem init_holds : Holds St.init Db.empty := run_holds []

theorem Mixed.holds {s : St} (h : Mixed s) : ∃ d, Holds s d := by
  obtain ⟨xs, rfl⟩ := h
  exact ⟨_, runVia_holds xs init_holds⟩

theorem Mixed.next {s : St} (h : Mixed s) (x : Option Prefixed × Cmd) : Mixed (execVia x s).2 := by
  obtain ⟨xs, rfl⟩ := h
  refine ⟨xs ++ [x], ?_⟩
  have : ∀ (xs : List (Option Prefixed × Cmd)) s, (runVia (xs ++ [x]) s).2 = (execVia x (runVia xs s).2).2 := by
    intro xs
    induction xs with
    | nil => intro s; rfl
    | cons y ys ih => intro s; exact ih (execVia y s).2
  exact (this xs _).symm

/-- States reached without sub-databases are among them. -/
theorem Reachable.mixed {s : St} (h : Reachable s) : Mixed s := by
  obtain ⟨cs, rfl⟩ := h
  refine ⟨cs.map fun c => (none, c), ?_⟩
  have : ∀ (cs : List Cmd) s, (runVia (cs.map fun c => (none, c)) s).2 = Hyperbee.runSt cs s := by
    intro cs
    induction cs with
    | nil => intro s; rfl
    | cons c cs ih => intro s; exact ih (exec c s).2
  exact (this cs _).symm

/-- Two sub-databases, one with an empty separator, and the database itself. -/
def subDemo : List (Option Prefixed × Cmd) :=
  ((List.range 12).map fun i => (some ⟨[1], [0]⟩, .put (demoKey (5 * i % 12)) (some [UInt8.ofNat i]))) ++
  ((List.range 12).map fun i => (some ⟨[2, 7], []⟩, .put (demoKey (7 * i % 12)) (some [UInt8.ofNat i, 1]))) ++
  [ (none, .put [0] (some [1])), (none, .put [3] none), (some ⟨[1], [0]⟩, .put [] (some [])),
    (some ⟨[1], [0]⟩, .put [0, 0] none), (some ⟨[1], [0]⟩, .traverse {} (List.replicate 9 true)),
    (some ⟨[1], [0]⟩, .del [3]), (some ⟨[2, 7], []⟩, .del [4]) ]

theorem subDemo_mixed : Mixed (runVia subDemo St.init).2 := ⟨_, rfl⟩

/-! ## C22 -/

/-- Every call on a sub-database other than a traversal is the call on the whole database with the
prefix and the separator put before the key: same reply, same state. -/
theorem sub_call (p : Prefixed) (s : St) :
    (∀ k, p.exec (.get k) s = exec (.get (p.pre ++ p.sep ++ k)) s) ∧
    (∀ k v, p.exec (.put k v) s = exec (.put (p.pre ++ p.sep ++ k) v) s) ∧
    (∀ k v cas, p.exec (.putCas k v cas) s = exec (.putCas (p.pre ++ p.sep ++ k) v cas) s) ∧
    (∀ k, p.exec (.del k) s = exec (.del (p.pre ++ p.sep ++ k)) s) ∧
    (∀ k cas, p.exec (.delCas k cas) s = exec (.delCas (p.pre ++ p.sep ++ k) cas) s) :=
  ⟨fun _ => rfl, fun _ _ => rfl, fun _ _ _ => rfl, fun _ => rfl, fun _ _ => rfl⟩

/-- In a history mixing both kinds of access, any call on the database gets the reply, and leaves
the blocks, it would had all writes been made on the database itself with prefixed keys. -/
theorem sub_history (xs : List (Option Prefixed × Cmd)) (c : Cmd) :
    (exec c (runVia xs St.init).2).1 = (exec c (runSt (xs.map expandVia) St.init)).1 ∧
    (exec c (runVia xs St.init).2).2.core = (exec c (runSt (xs.map expandVia) St.init)).2.core :=
  call_same (runVia_holds xs init_holds) (run_holds _) (runVia_core xs init_holds init_holds rfl).symm c

/-- The part of a database under a prefix, as a database of its own: same version. -/
def Db.sub (d : Db) (p : Prefixed) : Db := ⟨d.version, fun k => d.map (p.pre ++ p.sep ++ k)⟩

/-- Reads and plain writes through a sub-database make it a database of its own. -/
theorem sub_is_database {s : St} {d : Db} (h : Holds s d) (p : Prefixed) (c : Cmd)
    (hc : match c with | .get _ | .put _ _ | .del _ | .version => True | _ => False) :
    (d.sub p).Returns c (p.exec c s).1 ∧ ∃ d', Holds (p.exec c s).2 d' ∧ d'.sub p = (d.sub p).next c := by
  have key : ∀ k k' : Bytes, p.pre ++ p.sep ++ k' = p.pre ++ p.sep ++ k ↔ k' = k :=
    fun k k' => ⟨fun h => List.append_cancel_left h, fun h => by rw [h]⟩
  cases c with
  | get k => exact ⟨(exec_refines h (.get (p.pre ++ p.sep ++ k))).1, d, (exec_refines h (.get (p.pre ++ p.sep ++ k))).2, rfl⟩
  | version => exact ⟨(exec_refines h .version).1, d, (exec_refines h .version).2, rfl⟩
  | put k v =>
    refine ⟨(exec_refines h (.put (p.pre ++ p.sep ++ k) v)).1, _, (exec_refines h (.put (p.pre ++ p.sep ++ k) v)).2, ?_⟩
    simp only [Db.next, Db.write, Db.sub, Db.nextSeq, key]
  | del k =>
    refine ⟨(exec_refines h (.del (p.pre ++ p.sep ++ k))).1, _, (exec_refines h (.del (p.pre ++ p.sep ++ k))).2, ?_⟩
    simp only [Db.next, Db.sub]
    by_cases hm : (d.map (p.pre ++ p.sep ++ k)).isSome
    · simp only [hm, if_true, Db.remove, key]
    · simp only [hm, if_false, Bool.false_eq_true]
  | putCas _ _ _ => exact hc.elim
  | delCas _ _ => exact hc.elim
  | createHeader _ => exact hc.elim
  | traverse _ _ => exact hc.elim
  | reopen => exact hc.elim

/-- What was written through a sub-database is read back through it, and found in the database under
the prefixed key; what was deleted through it is gone. -/
theorem sub_readback {s : St} (hs : Mixed s) (p : Prefixed) (k : Bytes) (v : Option Bytes) :
    (∃ old q, (p.exec (.put k v) s).1 = .put old q ∧
      (p.exec (.get k) (p.exec (.put k v) s).2).1 = .got (some (q, v)) ∧
      (exec (.get (p.pre ++ p.sep ++ k)) (p.exec (.put k v) s).2).1 = .got (some (q, v))) ∧
    (p.exec (.get k) (p.exec (.del k) s).2).1 = .got none ∧
    ∀ k', k' ≠ k → (p.exec (.get k') (p.exec (.put k v) s).2).1 = (p.exec (.get k') s).1 ∧
      (p.exec (.get k') (p.exec (.del k) s).2).1 = (p.exec (.get k') s).1 := by
  obtain ⟨d, hd⟩ := hs.holds
  have hg : ∀ {s d}, Holds s d → ∀ k, (p.exec (.get k) s).1 = .got ((d.sub p).map k) :=
    fun h k => (sub_is_database h p (.get k) trivial).1
  obtain ⟨r1, d1, h1, e1⟩ := sub_is_database hd p (.put k v) trivial
  obtain ⟨r2, d2, h2, e2⟩ := sub_is_database hd p (.del k) trivial
  have hp : (p.exec (.get k) (p.exec (.put k v) s).2).1 = .got (some ((d.sub p).nextSeq, v)) := by
    rw [hg h1, e1]; simp [Db.next, Db.write]
  refine ⟨⟨_, _, r1, hp, hp⟩, ?_, fun k' hk => ⟨?_, ?_⟩⟩
  · rw [hg h2, e2]
    simp only [Db.next]
    split
    · simp [Db.remove]
    · rename_i h; simpa using h
  · rw [hg h1, e1, hg hd]; simp [Db.next, Db.write, hk]
  · rw [hg h2, e2, hg hd]
    simp only [Db.next]
    split
    · simp [Db.remove, hk]
    · rfl

/-- Keys containing the separator, and the empty key. -/
example : (Prefixed.exec ⟨[1], [0]⟩ (.get [0, 0]) (runVia subDemo St.init).2).1 = .got (some (28, none)) ∧
    (Prefixed.exec ⟨[1], [0]⟩ (.get []) (runVia subDemo St.init).2).1 = .got (some (27, some [])) ∧
    (exec (.get [1, 0]) (runVia subDemo St.init).2).1 = .got (some (27, some [])) ∧
    (Prefixed.exec ⟨[1], [0]⟩ (.get [3]) (runVia subDemo St.init).2).1 = .got none := by decide +kernel

/-! ## C23 -/

/-- Isolation does not hold when one prefix contains the separator: with the default separator, what
is written through `sub([1, 0, 2])` is seen through `sub([1])`. -/
theorem sub_not_isolated :
    let p1 : Prefixed := ⟨[1], defaultSeparator⟩
    let p2 : Prefixed := ⟨[1, 0, 2], defaultSeparator⟩
    let s := (p1.exec (.put [9] none) St.init).2
    (p1.exec (.get [2, 0, 5]) s).1 = .got none ∧
    (p1.exec (.get [2, 0, 5]) (p2.exec (.put [5] (some [8])) s).2).1 = .got (some (2, some [8])) := by
  decide +kernel

/-- Neither prefix with its separator continues the other. -/
def Apart (p q : Prefixed) : Prop :=
  ¬ p.pre ++ p.sep <+: q.pre ++ q.sep ∧ ¬ q.pre ++ q.sep <+: p.pre ++ p.sep

theorem Apart.ne {p q : Prefixed} (h : Apart p q) (k k' : Bytes) : p.pre ++ p.sep ++ k ≠ q.pre ++ q.sep ++ k' := by
  intro e
  rcases List.prefix_or_prefix_of_prefix (List.prefix_append (p.pre ++ p.sep) k)
    (e ▸ List.prefix_append (q.pre ++ q.sep) k') with h' | h'
  · exact h.1 h'
  · exact h.2 h'

/-- Different prefixes of one length are apart, whatever the separator. -/
theorem apart_of_length {a b sep : Bytes} (hl : a.length = b.length) (hne : a ≠ b) : Apart ⟨a, sep⟩ ⟨b, sep⟩ := by
  have : ∀ {a b : Bytes}, a.length = b.length → a ≠ b → ¬ a ++ sep <+: b ++ sep := by
    intro a b hl hne h
    have := List.IsPrefix.eq_of_length h (by simp [hl])
    exact hne (List.append_cancel_right this)
  exact ⟨this hl hne, this hl.symm (Ne.symm hne)⟩

/-- Different prefixes not containing the (one-byte) separator are apart. -/
theorem apart_of_sep {a b : Bytes} {z : UInt8} (ha : z ∉ a) (hb : z ∉ b) (hne : a ≠ b) : Apart ⟨a, [z]⟩ ⟨b, [z]⟩ := by
  have : ∀ (a b : Bytes), z ∉ a → z ∉ b → a ++ [z] <+: b ++ [z] → a = b := by
    intro a
    induction a with
    | nil =>
      intro b _ hb h
      cases b with
      | nil => rfl
      | cons y b =>
        rw [List.nil_append, List.cons_append, List.cons_prefix_cons] at h
        exact absurd (by simp [h.1]) hb
    | cons x a ih =>
      intro b ha hb h
      cases b with
      | nil =>
        rw [List.nil_append, List.cons_append, List.cons_prefix_cons] at h
        exact absurd (by simp [h.1]) ha
      | cons y b =>
        rw [List.cons_append, List.cons_append, List.cons_prefix_cons] at h
        simp only [List.mem_cons, not_or] at ha hb
        rw [h.1, ih b ha.2 hb.2 h.2]
  exact ⟨fun h => hne (this a b ha hb h), fun h => hne (this b a hb ha h).symm⟩

example : Apart ⟨[1], [0]⟩ ⟨[1, 2], [0]⟩ ∧ Apart ⟨[1, 0], [0]⟩ ⟨[1, 2], [0]⟩ :=
  ⟨apart_of_sep (by decide) (by decide) (by decide), apart_of_length rfl (by decide)⟩

/-- Whether a call writes (or may write) under a key. -/
def Cmd.target : Cmd → Option Bytes
  | .put k _ => some k
  | .putCas k _ _ => some k
  | .del k => some k
  | .delCas k _ => some k
  | _ => none

theorem Db.next_other (d : Db) (c : Cmd) {k : Bytes} (h : c.target ≠ some k) : (d.next c).map k = d.map k := by
  have hw : ∀ k' v, k' ≠ k → (d.write k' v).map k = d.map k := fun k' v hk => by simp [Db.write, Ne.symm hk]
  have hr : ∀ k', k' ≠ k → (d.remove k').map k = d.map k := fun k' hk => by simp [Db.remove, Ne.symm hk]
  cases c with
  | put k' v => exact hw _ _ (fun e => h (by rw [e]; rfl))
  | putCas k' v cas =>
    simp only [Db.next]
    split
    · exact hw _ _ (fun e => h (by rw [e]; rfl))
    · rfl
  | del k' =>
    simp only [Db.next]
    split
    · exact hr _ (fun e => h (by rw [e]; rfl))
    · rfl
  | delCas k' cas =>
    simp only [Db.next]
    split
    · rfl
    · split
      · exact hr _ (fun e => h (by rw [e]; rfl))
      · rfl
  | _ => rfl

/-- Missing from the full claim: prefixes one of which, with the separator, begins the other; there
it is false.  For prefixes that are apart, no call through the one changes what the other reads. -/
theorem sub_isolated_partial {s : St} (hs : Mixed s) {p q : Prefixed} (h : Apart p q) (c : Cmd) (k : Bytes) :
    (q.exec (.get k) (p.exec c s).2).1 = (q.exec (.get k) s).1 := by
  obtain ⟨d, hd⟩ := hs.holds
  have h1 : Holds (p.exec c s).2 (d.next (p.expand c)) := execVia_holds hd (some p, c)
  have e1 : (q.exec (.get k) (p.exec c s).2).1 = .got ((d.next (p.expand c)).map (q.pre ++ q.sep ++ k)) :=
    (exec_refines h1 (.get (q.pre ++ q.sep ++ k))).1
  have e2 : (q.exec (.get k) s).1 = .got (d.map (q.pre ++ q.sep ++ k)) :=
    (exec_refines hd (.get (q.pre ++ q.sep ++ k))).1
  rw [e1, e2, Db.next_other]
  cases c with
  | put k' _ => simpa [Prefixed.expand, Cmd.target] using h.ne k' k
  | putCas k' _ _ => simpa [Prefixed.expand, Cmd.target] using h.ne k' k
  | del k' => simpa [Prefixed.expand, Cmd.target] using h.ne k' k
  | delCas k' _ => simpa [Prefixed.expand, Cmd.target] using h.ne k' k
  | _ => simp [Prefixed.expand, Cmd.target]

/-- And for no others: two sub-databases are isolated exactly if neither prefix, with its separator,
begins the other. -/
theorem sub_isolated_iff (p q : Prefixed) :
    (∀ s, Mixed s → ∀ c k, (q.exec (.get k) (p.exec c s).2).1 = (q.exec (.get k) s).1) ↔ Apart p q := by
  refine ⟨fun h => ?_, fun h s hs c k => sub_isolated_partial hs h c k⟩
  have hinit : Mixed St.init := ⟨[], rfl⟩
  have hne : ∀ k k', p.pre ++ p.sep ++ k ≠ q.pre ++ q.sep ++ k' := by
    intro k k' e
    obtain ⟨⟨old, n, _, _, h1⟩, _⟩ := sub_readback hinit p k none
    have h2 := h St.init hinit (.put k none) k'
    have h3 : (q.exec (.get k') St.init).1 = .got none := (exec_refines init_holds (.get (q.pre ++ q.sep ++ k'))).1
    have h4 : (q.exec (.get k') (p.exec (.put k none) St.init).2).1 = .got (some (n, none)) := by
      show (exec (.get (q.pre ++ q.sep ++ k')) _).1 = _
      rw [← e]; exact h1
    rw [h3, h4] at h2
    cases h2
  constructor
  · rintro ⟨t, ht⟩
    exact hne t [] (by rw [ht, List.append_nil])
  · rintro ⟨t, ht⟩
    exact hne [] t (by rw [ht, List.append_nil])

/-- For two sub-databases made with the same one-byte separator: the prefixes differ, and neither
begins with the other followed by the separator. -/
theorem apart_iff {a b : Bytes} {z : UInt8} :
    Apart ⟨a, [z]⟩ ⟨b, [z]⟩ ↔ a ≠ b ∧ ¬ a ++ [z] <+: b ∧ ¬ b ++ [z] <+: a := by
  have h : ∀ x y : Bytes, x ++ [z] <+: y ++ [z] ↔ x = y ∨ x ++ [z] <+: y := by
    intro x y
    rw [List.prefix_concat_iff]
    constructor
    · rintro (h | h)
      · exact .inl (List.append_cancel_right h)
      · exact .inr h
    · rintro (h | h)
      · exact .inl (by rw [h])
      · exact .inr h
  simp only [Apart, h, not_or]
  constructor
  · rintro ⟨⟨h1, h2⟩, _, h4⟩; exact ⟨h1, h2, h4⟩
  · rintro ⟨h1, h2, h4⟩; exact ⟨⟨h1, h2⟩, Ne.symm h1, h4⟩

/-- Nor does any number of calls through sub-databases apart from it. -/
theorem sub_isolated_runs_partial {q : Prefixed} : ∀ (xs : List (Prefixed × Cmd)) {s : St}, Mixed s →
    (∀ x ∈ xs, Apart x.1 q) → ∀ k,
    (q.exec (.get k) (runVia (xs.map fun x => (some x.1, x.2)) s).2).1 = (q.exec (.get k) s).1 := by
  intro xs
  induction xs with
  | nil => intro s _ _ k; rfl
  | cons x xs ih =>
    intro s hs hx k
    have h1 := ih (hs.next (some x.1, x.2)) (fun y hy => hx y (List.mem_cons_of_mem _ hy)) k
    exact h1.trans (sub_isolated_partial hs (hx x (by simp)) x.2 k)

/-- Two sub-databases that both hold something. -/
example : Apart ⟨[1], [0]⟩ ⟨[2, 7], []⟩ ∧
    (Prefixed.exec ⟨[2, 7], []⟩ (.get [5]) (runVia subDemo St.init).2).1 = .got (some (24, some [11, 1])) ∧
    (Prefixed.exec ⟨[1], [0]⟩ (.get [5]) (runVia subDemo St.init).2).1 = .got (some (2, some [1])) := by
  refine ⟨⟨by decide, by decide⟩, ?_⟩
  decide +kernel

/-! ## C24 -/

/-- `xs` lists what `get` on the sub-database finds in the interval of `conf`, with the keys it finds
it under, each key once, in the order `conf` asks for. -/
def SubLists (p : Prefixed) (s : St) (conf : TraverseConfig) (xs : List KeyValueData) : Prop :=
  (if conf.reversed then xs.reverse else xs).Pairwise (fun a b => a.key < b.key) ∧
  ∀ e, e ∈ xs ↔ (p.exec (.get e.key) s).1 = .got (some (e.seq, e.value)) ∧ InRange conf e.key

theorem boundedConf_reversed (p : Prefixed) (conf : TraverseConfig) : (p.boundedConf conf).reversed = conf.reversed := by
  unfold Prefixed.boundedConf
  rfl

/-- A sub-database traversal whose bounds enclose, of what is stored, exactly what belongs to it. -/
theorem sub_traversal {s : St} {d : Db} (hd : Holds s d) (h2 : 2 ≤ s.core.length) (p : Prefixed)
    {b : TraverseConfigBuilder} {conf : TraverseConfig} (hb : b.build = .ok conf) (hS : (p.boundedConf conf).Sound)
    (hr : ∀ x, d.map x ≠ none → (InRange (p.boundedConf conf) x ↔ ∃ y, x = p.pre ++ p.sep ++ y ∧ InRange conf y)) :
    ∃ (full : List KeyValueData) (N : Nat), SubLists p s conf full ∧ ∀ sched, ∃ xs fin,
      (p.exec (.traverse b sched) s).1 = .items (xs.map .ok) fin ∧ xs <+: full ∧ (fin = true → xs = full) ∧
      (N ≤ sched.count true → fin = true) := by
  rcases hd.store with hbare | ⟨H, t, ht, hc, hcon⟩
  · have := hbare.1; omega
  have hl := listing_isListing ht hcon hS
  let bc := p.boundedConf conf
  let n := p.pre.length + p.sep.length
  let cut : KeyValueData → KeyValueData := fun x => { x with key := x.key.drop n }
  have hplen : (p.pre ++ p.sep).length = n := List.length_append
  -- what is listed has the prefix
  have hpre : ∀ q ∈ listing s.core bc t, ∃ y, keyOf s.core q = p.pre ++ p.sep ++ y ∧ InRange conf y ∧
      d.map (p.pre ++ p.sep ++ y) = some (q, valOf s.core q) := by
    intro q hq
    have hm := (hl.2 (kvOf s.core q)).mp (List.mem_map_of_mem hq)
    have hmap : d.map (keyOf s.core q) = some (q, valOf s.core q) := by
      have h1 : d.entry (keyOf s.core q) = some (kvOf s.core q) := hm.1
      rw [Db.entry_eq] at h1
      cases hx : d.map (keyOf s.core q) with
      | none => rw [hx] at h1; cases h1
      | some z =>
        rw [hx] at h1
        simp only [Option.map_some, Option.some.injEq] at h1
        have e1 : z.1 = q := congrArg KeyValueData.seq h1
        have e2 : z.2 = valOf s.core q := congrArg KeyValueData.value h1
        rw [← e2, ← e1]
    obtain ⟨y, hy, hy2⟩ := (hr (keyOf s.core q) (by rw [hmap]; simp)).mp hm.2
    exact ⟨y, hy, hy2, hy ▸ hmap⟩
  have hcut : ∀ q y, keyOf s.core q = p.pre ++ p.sep ++ y → cut (kvOf s.core q) = ⟨q, y, valOf s.core q⟩ := by
    intro q y h
    show (⟨q, (keyOf s.core q).drop n, valOf s.core q⟩ : KeyValueData) = _
    rw [h, List.drop_append_of_le_length (by omega), List.drop_eq_nil_of_le (by omega), List.nil_append]
  refine ⟨((listing s.core bc t).map fun q => cut (kvOf s.core q)), t.cost, ⟨?_, ?_⟩, fun sched => ?_⟩
  · -- order
    have h1 := hl.1
    rw [boundedConf_reversed] at h1
    have hgen : ∀ l : List Nat, (∀ q ∈ l, ∃ y, keyOf s.core q = p.pre ++ p.sep ++ y) →
        (l.map (kvOf s.core)).Pairwise (fun a b => a.key < b.key) →
        (l.map fun q => cut (kvOf s.core q)).Pairwise (fun a b => a.key < b.key) := by
      intro l hpl hpw
      rw [List.pairwise_map] at hpw ⊢
      refine hpw.imp_of_mem ?_
      intro q1 q2 m1 m2 hlt
      obtain ⟨y1, e1⟩ := hpl q1 m1
      obtain ⟨y2, e2⟩ := hpl q2 m2
      rw [hcut q1 y1 e1, hcut q2 y2 e2]
      have : keyOf s.core q1 < keyOf s.core q2 := hlt
      rw [e1, e2, append_lt_iff] at this
      exact this
    have hp' : ∀ q ∈ listing s.core bc t, ∃ y, keyOf s.core q = p.pre ++ p.sep ++ y :=
      fun q hq => let ⟨y, e, _⟩ := hpre q hq; ⟨y, e⟩
    cases hrev : conf.reversed with
    | false => rw [hrev] at h1; exact hgen _ hp' h1
    | true =>
      rw [hrev] at h1
      simp only [if_true, ← List.map_reverse] at h1 ⊢
      exact hgen _ (fun q hq => hp' q (List.mem_reverse.mp hq)) h1
  · -- members
    intro e
    have hget : (p.exec (.get e.key) s).1 = .got (some (e.seq, e.value)) ↔
        d.map (p.pre ++ p.sep ++ e.key) = some (e.seq, e.value) := by
      have : (p.exec (.get e.key) s).1 = .got (d.map (p.pre ++ p.sep ++ e.key)) :=
        (exec_refines hd (.get (p.pre ++ p.sep ++ e.key))).1
      rw [this]
      constructor
      · intro h; injection h
      · intro h; rw [h]
    rw [hget]
    constructor
    · intro he
      obtain ⟨q, hq, rfl⟩ := List.mem_map.mp he
      obtain ⟨y, hy, hin, hmap⟩ := hpre q hq
      rw [hcut q y hy]
      exact ⟨hmap, hin⟩
    · rintro ⟨hm, hin⟩
      obtain ⟨m1, m2, m3⟩ := (hcon _ _ _).mp hm
      have hin' : InRange bc (p.pre ++ p.sep ++ e.key) := (hr _ (by rw [hm]; simp)).mpr ⟨_, rfl, hin⟩
      have hmem : e.seq ∈ listing s.core bc t := by
        have hk : kvOf s.core e.seq = ⟨e.seq, p.pre ++ p.sep ++ e.key, e.value⟩ := by
          show (⟨e.seq, keyOf s.core e.seq, valOf s.core e.seq⟩ : KeyValueData) = _
          rw [m2, m3]
        have := (hl.2 ⟨e.seq, p.pre ++ p.sep ++ e.key, e.value⟩).mpr ⟨by rw [Db.entry_eq, hm]; rfl, hin'⟩
        obtain ⟨q, hq, hqe⟩ := List.mem_map.mp this
        have : q = e.seq := congrArg KeyValueData.seq hqe
        exact this ▸ hq
      refine List.mem_map.mpr ⟨e.seq, hmem, ?_⟩
      rw [hcut _ _ m2, m3]
  · -- replies
    obtain ⟨fs, s1, h1, e1, hst⟩ := traverse_run ht hd.wf hc bc
    obtain ⟨xs, rest, fin, s2, h3, e2, ho, hfin⟩ := drive_run (c := s.core) (post := p.strip)
      (g := fun q => .ok (cut (kvOf s.core q))) hS sched s1 fs _ _ e1.core hst e1.wf (by
        intro q hq s'
        rw [p.strip_eq]
        obtain ⟨y, hy, _⟩ := hpre q hq
        have : p.pre.length + p.sep.length ≤ (kvOf s.core q).key.length := by
          show _ ≤ (keyOf s.core q).length
          rw [hy, List.length_append, List.length_append]; omega
        simp only [Prefixed.stripE, this, if_true]
        rfl)
    refine ⟨xs.map fun q => cut (kvOf s.core q), fin.isNone, ?_, ?_, ?_, ?_⟩
    · show (replyOf (p.traverseSession b sched) _ s).1 = _
      have hcol : p.collect sched conf s = (.ok (xs.map fun q => .ok (cut (kvOf s.core q)), fin), s2) := by
        unfold Prefixed.collect
        rw [bind_ok h1]
        exact h3
      unfold replyOf Prefixed.traverseSession
      rw [hb]
      simp only []
      rw [bind_ok hcol]
      simp [List.map_map, Function.comp_def, pure, M.pure]
    · rw [ho, List.map_append]; exact List.prefix_append _ _
    · intro hf
      cases fin with
      | some fs => cases hf
      | none => simp only at hfin; rw [ho, hfin, List.append_nil]
    · intro hcount
      cases fin with
      | none => rfl
      | some fs =>
        obtain ⟨fuel', hst', hle⟩ := hfin
        have := hst'.pos
        omega

theorem bounded_two (p : Prefixed) {conf : TraverseConfig} {lo hi : Bytes} (h1 : conf.minValue = .finite lo)
    (h2 : conf.maxValue = .finite hi) : p.boundedConf conf =
      ⟨.finite (p.pre ++ p.sep ++ lo), conf.minInclusive, .finite (p.pre ++ p.sep ++ hi), conf.maxInclusive, conf.reversed⟩ := by
  unfold Prefixed.boundedConf
  rw [h1, h2]
  rfl

theorem append_eq_iff (p a b : Bytes) : p ++ a = p ++ b ↔ a = b :=
  ⟨fun h => List.append_cancel_left h, fun h => by rw [h]⟩

/-- Traversing a sub-database between two keys yields exactly its entries in that range, in order,
under the keys the sub-database knows them by; whatever the prefix, the separator, and the other
contents of the database, and however the polls are scheduled. -/
theorem sub_bounded_traversal {s : St} (hs : Mixed s) (h2 : 2 ≤ s.core.length) (p : Prefixed)
    {b : TraverseConfigBuilder} {conf : TraverseConfig} (hb : b.build = .ok conf) {lo hi : Bytes}
    (hlo : conf.minValue = .finite lo) (hhi : conf.maxValue = .finite hi) :
    ∃ (full : List KeyValueData) (N : Nat), SubLists p s conf full ∧ ∀ sched, ∃ xs fin,
      (p.exec (.traverse b sched) s).1 = .items (xs.map .ok) fin ∧ xs <+: full ∧ (fin = true → xs = full) ∧
      (N ≤ sched.count true → fin = true) := by
  obtain ⟨d, hd⟩ := hs.holds
  have hbc := bounded_two p hlo hhi
  have hord := build_ordered hb hlo hhi
  refine sub_traversal hd h2 p hb ?_ ?_
  · rw [hbc]
    refine sound_of ?_
    intro x hx hi'
    simp only [LimitValue.finite.injEq] at hx
    subst hx
    simp only [BelowMax, append_lt_iff, append_eq_iff]
    rcases hord with h | ⟨h, _, h'⟩
    · exact .inl h
    · exact .inr ⟨h', h⟩
  · intro x _
    rw [hbc]
    simp only [InRange, AboveMin, BelowMax, hlo, hhi]
    constructor
    · rintro ⟨h3, h4⟩
      obtain ⟨y, rfl⟩ := between_prefix (p.pre ++ p.sep) (h3.imp id And.right) (h4.imp id And.right)
      simp only [append_lt_iff, append_eq_iff] at h3 h4
      exact ⟨y, rfl, h3, h4⟩
    · rintro ⟨y, rfl, h3, h4⟩
      simp only [append_lt_iff, append_eq_iff]
      exact ⟨h3, h4⟩

/-- A range in a sub-database sharing its first bytes with other keys. -/
example : 2 ≤ (runVia subDemo St.init).2.core.length ∧
    (match (Prefixed.exec ⟨[1], [0]⟩ (.traverse ⟨some (.finite []), some false, some (.finite [5]), none, some true⟩
        (List.replicate 120 true)) (runVia subDemo St.init).2).1 with
      | .items xs true => decide (xs.map (fun x => x.toOption.map (·.key)) =
          [some [5], some [4], some [2], some [1], some [0, 0], some [0]])
      | _ => false) = true := by decide +kernel

/-- A listing of a sub-database is determined by what it has to list. -/
theorem SubLists.unique {p : Prefixed} {s s' : St} {conf : TraverseConfig} {xs ys : List KeyValueData}
    (hg : ∀ k, (p.exec (.get k) s').1 = (p.exec (.get k) s).1) (h1 : SubLists p s conf xs) (h2 : SubLists p s' conf ys) :
    xs = ys := by
  have hm : ∀ e, e ∈ xs ↔ e ∈ ys := fun e => (h1.2 e).trans (by rw [← hg]; exact (h2.2 e).symm)
  have s1 := h1.1
  have s2 := h2.1
  cases hr : conf.reversed with
  | false => rw [hr] at s1 s2; exact sorted_ext s1 s2 hm
  | true =>
    rw [hr] at s1 s2
    have := sorted_ext s1 s2 (fun e => by simp only [if_true, List.mem_reverse]; exact hm e)
    exact List.reverse_injective this

/-- Hence bounded traversals of a sub-database see nothing of calls through others apart from it. -/
theorem sub_isolated_traversal_partial {s : St} (hs : Mixed s) (h2 : 2 ≤ s.core.length) {p q : Prefixed} (h : Apart p q)
    (c : Cmd) {b : TraverseConfigBuilder} {conf : TraverseConfig} (hb : b.build = .ok conf) {lo hi : Bytes}
    (hlo : conf.minValue = .finite lo) (hhi : conf.maxValue = .finite hi) :
    ∃ N, ∀ sched, N ≤ sched.count true →
      (q.exec (.traverse b sched) (p.exec c s).2).1 = (q.exec (.traverse b sched) s).1 := by
  have hlen : s.core.length ≤ (p.exec c s).2.core.length := by
    by_cases hc : ∃ b sched, c = .traverse b sched
    · obtain ⟨b', sched', rfl⟩ := hc
      obtain ⟨d, hd⟩ := hs.holds
      rw [(p.traverse_ext hd b' sched').core]
      exact Nat.le_refl _
    · rw [p.exec_expand c (fun b sched e => hc ⟨b, sched, e⟩)]
      exact version_monotone _ _
  obtain ⟨f1, N1, l1, g1⟩ := sub_bounded_traversal hs h2 q hb hlo hhi
  obtain ⟨f2, N2, l2, g2⟩ := sub_bounded_traversal (hs.next (some p, c)) (Nat.le_trans h2 hlen) q hb hlo hhi
  have e := SubLists.unique (fun k => sub_isolated_partial hs h c k) l1 l2
  refine ⟨max N1 N2, fun sched hN => ?_⟩
  obtain ⟨xs, fin, a1, _, a3, a4⟩ := g1 sched
  obtain ⟨ys, fin', b1, _, b3, b4⟩ := g2 sched
  have hf := a4 (by omega)
  have hf' := b4 (by omega)
  have b1' : (q.exec (.traverse b sched) (p.exec c s).2).1 = .items (ys.map .ok) fin' := b1
  rw [a1, b1', a3 hf, b3 hf', hf, hf', e]

/-! ## C51 -/

/-- Whatever the configuration, what a sub-database traversal yields is stored in the database under
a key within the bounds it was turned into, and is yielded under that key without its first bytes,
as many as prefix and separator have.  It fails only without a root, or on a key with fewer bytes
than that. -/
theorem sub_yields {s : St} (hs : Mixed s) (p : Prefixed) (sched : List Bool) (conf : TraverseConfig) :
    match (p.collect sched conf s).1 with
    | .ok (xs, _) => ∀ x ∈ xs, ∃ (e : KeyValueData) (key : Bytes), x = .ok e ∧
        (exec (.get key) s).1 = .got (some (e.seq, e.value)) ∧ (p.boundedConf conf).inBounds key = true ∧
        p.pre.length + p.sep.length ≤ key.length ∧ e.key = key.drop (p.pre.length + p.sep.length)
    | .error e => (e = .noRoot ∧ s.core.length ≤ 1) ∨
        (e = .panic "prefixed.rs:171 key.drain(..len_drain)" ∧ ∃ key, (exec (.get key) s).1 ≠ .got none ∧
          (p.boundedConf conf).inBounds key = true ∧ key.length < p.pre.length + p.sep.length) := by
  obtain ⟨d, hd⟩ := hs.holds
  rcases hd.store with hb | ⟨H, t, ht, hc, hcon⟩
  · rw [p.collect_bare hb]
    exact .inl ⟨rfl, hb.1⟩
  · have hget : ∀ q ∈ t.flat, (exec (.get (keyOf s.core q)) s).1 = .got (some (q, valOf s.core q)) := by
      intro q hq
      have : (exec (.get (keyOf s.core q)) s).1 = .got (d.map (keyOf s.core q)) := (exec_refines hd (.get (keyOf s.core q))).1
      rw [this, (hcon _ _ _).mpr ⟨hq, rfl, rfl⟩]
    obtain ⟨fs, s1, h1, e1, hsafe⟩ := traverse_safe ht hd.wf hc (p.boundedConf conf)
    obtain ⟨res, s2, h2, e2, hres⟩ := drive_safe (p.strip_eq) sched (c := s.core) e1.core e1.wf hsafe
    have hcol : p.collect sched conf s = (res, s2) := by
      unfold Prefixed.collect
      rw [bind_ok h1, h2]
    rw [hcol]
    rcases hres with ⟨ys, fin, qs, rfl, h3, h4⟩ | ⟨e, q, hq, rfl, hg, hin⟩
    · intro x hx
      have hx' : Except.ok x ∈ qs.map (fun q => p.stripE (.ok (kvOf s.core q))) := h4 ▸ List.mem_map_of_mem hx
      obtain ⟨q, hq, hqx⟩ := List.mem_map.mp hx'
      obtain ⟨m1, m2⟩ := h3 q hq
      unfold Prefixed.stripE at hqx
      simp only [] at hqx
      split at hqx
      · rename_i hle
        injection hqx with hqx
        exact ⟨_, keyOf s.core q, hqx.symm, hget q m1, m2, hle, rfl⟩
      · cases hqx
    · unfold Prefixed.stripE at hg
      simp only [] at hg
      split at hg
      · cases hg
      · rename_i hle
        injection hg with hg
        refine .inr ⟨hg.symm, keyOf s.core q, by rw [hget q hq]; simp, hin, ?_⟩
        have : ¬ p.pre.length + p.sep.length ≤ (keyOf s.core q).length := hle
        omega

/-- An entry read as `k` through the sub-database is yielded as `k` by every traversal of the
sub-database that yields it, whatever bytes `k` has and whatever the bounds. -/
theorem sub_key_kept {s : St} (hs : Mixed s) (p : Prefixed) {k : Bytes} {q : Nat} {v : Option Bytes}
    (hk : (p.exec (.get k) s).1 = .got (some (q, v))) {sched : List Bool} {conf : TraverseConfig}
    {xs : List (Except Err KeyValueData)} {fin : Option (List Frame)} (hx : (p.collect sched conf s).1 = .ok (xs, fin))
    {e : KeyValueData} (he : .ok e ∈ xs) (hq : e.seq = q) : e.key = k ∧ e.value = v := by
  obtain ⟨d, hd⟩ := hs.holds
  have h1 := sub_yields hs p sched conf
  rw [hx] at h1
  obtain ⟨e', key, he', hg, -, -, hdrop⟩ := h1 _ he
  cases he'
  have g1 : (exec (.get key) s).1 = .got (d.map key) := (exec_refines hd (.get key)).1
  have g2 : (p.exec (.get k) s).1 = .got (d.map (p.pre ++ p.sep ++ k)) := (exec_refines hd (.get (p.pre ++ p.sep ++ k))).1
  rw [g1] at hg
  rw [g2] at hk
  injection hg with hg
  injection hk with hk
  rcases hd.store with hb | ⟨H, t, ht, hc, hcon⟩
  · rw [hb.2] at hg; cases hg
  · obtain ⟨_, k1, v1⟩ := (hcon _ _ _).mp hg
    obtain ⟨_, k2, v2⟩ := (hcon _ _ _).mp hk
    rw [hq] at k1 v1
    refine ⟨?_, by rw [← v1, v2]⟩
    rw [hdrop, ← k1, k2]
    rw [List.drop_append_of_le_length (by simp), List.drop_eq_nil_of_le (by simp), List.nil_append]

/-- The empty key, and one made of the separator, both yielded as they were written. -/
example : (match (Prefixed.collect ⟨[1], [0]⟩ (List.replicate 200 true) .default (runVia subDemo St.init).2).1 with
      | .ok (xs, none) => decide (.ok ⟨27, [], some []⟩ ∈ xs ∧ .ok ⟨28, [0, 0], none⟩ ∈ xs)
      | _ => false) = true := by decide +kernel

/-! ## C25 -/

/-- Without bounds, the empty prefix and prefixes ending in the byte 255 yield nothing of their
sub-database, whatever it holds: they end with no item, or panic on the key equal to the prefix. -/
theorem sub_misses_everything {s : St} (hs : Mixed s) (p : Prefixed) (hsep : p.sep ≠ [])
    (hp : p.pre = [] ∨ p.pre.getLast? = some 255) (sched : List Bool) {xs : List (Except Err KeyValueData)} {fin : Bool}
    (hx : (p.exec (.traverse {} sched) s).1 = .items xs fin) : xs = [] := by
  have hcol : ∃ fin', (p.collect sched .default s).1 = .ok (xs, fin') := by
    change (replyOf (p.traverseSession {} sched) _ s).1 = _ at hx
    unfold replyOf Prefixed.traverseSession at hx
    rw [show TraverseConfigBuilder.build {} = .ok .default from rfl] at hx
    simp only [] at hx
    cases hc : p.collect sched .default s with
    | mk r s' =>
      cases r with
      | error e => rw [bind_error hc] at hx; cases hx
      | ok a =>
        rw [bind_ok hc] at hx
        obtain ⟨ys, f⟩ := a
        simp only [pure, M.pure] at hx
        injection hx with h1 h2
        exact ⟨f, by rw [h1]⟩
  obtain ⟨fin', hcol⟩ := hcol
  have h1 := sub_yields hs p sched .default
  rw [hcol] at h1
  cases xs with
  | nil => rfl
  | cons x xs =>
    exfalso
    obtain ⟨e, key, -, -, hin, hlen, -⟩ := h1 x (by simp)
    have hinc : incrementBytes p.pre = p.pre ++ [0] := by
      unfold incrementBytes
      rcases hp with h | h
      · rw [h]; rfl
      · rw [h]; simp
    have hbc : p.boundedConf .default = ⟨.finite p.pre, true, .finite (p.pre ++ [0]), false, false⟩ := by
      unfold Prefixed.boundedConf
      rw [hinc]
      rfl
    have hS : (p.boundedConf .default).Sound := by
      rw [hbc]
      refine sound_of ?_
      intro lo hlo _
      simp only [LimitValue.finite.injEq] at hlo
      subst hlo
      exact .inl (blt_of_prefix ⟨[0], rfl⟩ (by simp))
    have hr := (hS key).mp hin
    rw [hbc] at hr
    simp only [InRange, AboveMin, BelowMax, Bool.false_eq_true, false_and, or_false, true_and] at hr
    have hpre : p.pre <+: key := between_prefix p.pre (a := []) (b := [0]) (by simpa using hr.1) (.inl hr.2)
    obtain ⟨y, rfl⟩ := hpre
    have h3 := hr.2
    rw [append_lt_iff] at h3
    cases y with
    | nil =>
      have : 0 < p.sep.length := List.length_pos_iff.mpr hsep
      simp at hlen
      omega
    | cons c y =>
      rw [List.cons_lt_cons_iff] at h3
      rcases h3 with h3 | ⟨_, h3⟩
      · rw [UInt8.lt_iff_toNat_lt] at h3; simp at h3
      · simp at h3

/-- The four ways an unbounded traversal goes wrong: nothing is yielded for the empty prefix and for
a prefix ending in 255; a key of another sub-database, whose prefix continues this one, is yielded
with the wrong bytes cut off; and a key equal to the prefix makes it panic. -/
theorem sub_unbounded_wrong :
    (let p : Prefixed := ⟨[], defaultSeparator⟩
     let s := (p.exec (.put [5] none) St.init).2
     (p.exec (.get [5]) s).1 = .got (some (1, none)) ∧
      (p.exec (.traverse {} (List.replicate 20 true)) s).1 = .items [] true) ∧
    (let p : Prefixed := ⟨[255], defaultSeparator⟩
     let s := (p.exec (.put [5] none) St.init).2
     (p.exec (.get [5]) s).1 = .got (some (1, none)) ∧
      (p.exec (.traverse {} (List.replicate 20 true)) s).1 = .items [] true) ∧
    (let p : Prefixed := ⟨[97], defaultSeparator⟩
     let q : Prefixed := ⟨[97, 98], defaultSeparator⟩
     let s := (q.exec (.put [5] none) St.init).2
     (p.exec (.traverse {} (List.replicate 20 true)) s).1 = .items [.ok ⟨1, [0, 5], none⟩] true ∧
      (p.exec (.get [0, 5]) s).1 = .got none) ∧
    (let p : Prefixed := ⟨[97], defaultSeparator⟩
     let s := (exec (.put [97] none) St.init).2
     (p.exec (.traverse {} (List.replicate 20 true)) s).1 = .error (.panic "prefixed.rs:171 key.drain(..len_drain)")) := by
  decide +kernel

/-- A lower limit of plus infinity excludes every key, but a sub-database takes it as no limit. -/
theorem sub_wrong_infinity :
    let p : Prefixed := ⟨[97], defaultSeparator⟩
    let b : TraverseConfigBuilder := { minValue := some (.infinite .positive) }
    let s := (p.exec (.put [5] none) St.init).2
    (p.exec (.traverse b (List.replicate 20 true)) s).1 = .items [.ok ⟨1, [5], none⟩] true ∧
    (exec (.traverse b (List.replicate 20 true)) s).1 = .items [] true ∧
    ∀ conf, b.build = .ok conf → ∀ k, ¬ InRange conf k := by
  refine ⟨by decide +kernel, by decide +kernel, ?_⟩
  intro conf hb k h
  rw [InRange, (build_fields hb).1] at h
  exact h.1

theorem increment_reach (pre : Bytes) {k : Bytes} (h : pre < k ∨ k = pre) :
    k < incrementBytes pre ↔ k = pre ∨ pre <+: k ∧ ∃ last, pre.getLast? = some last ∧ last ≠ 255 := by
  by_cases hl : ∃ last, pre.getLast? = some last ∧ last ≠ 255
  · obtain ⟨last, hlast, h255⟩ := hl
    obtain ⟨b0, hb0⟩ : ∃ b0, pre = b0 ++ [last] := by
      refine ⟨pre.dropLast, ?_⟩
      have hne : pre ≠ [] := by intro h; rw [h] at hlast; cases hlast
      have := List.dropLast_append_getLast hne
      rw [List.getLast?_eq_some_getLast hne] at hlast
      injection hlast with hl
      rw [hl] at this
      exact this.symm
    have hinc := increment_range (p := b0) h255 k
    rw [← hb0] at hinc
    constructor
    · intro h2; exact .inr ⟨hinc.mp ⟨h, h2⟩, last, hlast, h255⟩
    · rintro (rfl | ⟨h2, _⟩)
      · exact (hinc.mpr (List.prefix_refl _)).2
      · exact (hinc.mpr h2).2
  · have hinc : incrementBytes pre = pre ++ [0] := by
      unfold incrementBytes
      cases hg : pre.getLast? with
      | none => simp only [List.getLast?_eq_none_iff] at hg; rw [hg]; rfl
      | some last =>
        by_cases h255 : last = 255
        · simp [h255]
        · exact absurd ⟨last, hg, h255⟩ hl
    rw [hinc]
    simp only [hl, and_false, or_false]
    constructor
    · intro h2
      rcases h with h | h
      · rcases succ_le h with h3 | h3
        · exact absurd (blt_trans h3 h2) (blt_irrefl _)
        · rw [h3] at h2; exact absurd h2 (blt_irrefl _)
      · exact h
    · rintro rfl; exact lt_succ _

theorem boundedConf_range (p : Prefixed) (conf : TraverseConfig) (k : Bytes) :
    InRange (p.boundedConf conf) k ↔ Passes p conf k := by
  have hge : ∀ y, p.pre < p.pre ++ p.sep ++ y ∨ p.pre ++ p.sep ++ y = p.pre := fun y => by
    by_cases h : p.pre = p.pre ++ p.sep ++ y
    · exact .inr h.symm
    · exact .inl (blt_of_prefix ⟨p.sep ++ y, by simp⟩ h)
  have hlow : (match conf.minValue with
      | .finite lo => p.pre ++ p.sep ++ lo < k ∨ conf.minInclusive = true ∧ k = p.pre ++ p.sep ++ lo
      | .infinite _ => p.pre < k ∨ k = p.pre) → p.pre < k ∨ k = p.pre := by
    cases conf.minValue with
    | infinite _ => exact id
    | finite lo =>
      rintro (h | ⟨_, rfl⟩)
      · rcases hge lo with h' | h'
        · exact .inl (blt_trans h' h)
        · rw [h'] at h; exact .inl h
      · exact hge lo
  have e : InRange (p.boundedConf conf) k ↔
      (match conf.minValue with
        | .finite lo => p.pre ++ p.sep ++ lo < k ∨ conf.minInclusive = true ∧ k = p.pre ++ p.sep ++ lo
        | .infinite _ => p.pre < k ∨ k = p.pre) ∧
      (match conf.maxValue with
        | .finite hi => k < p.pre ++ p.sep ++ hi ∨ conf.maxInclusive = true ∧ k = p.pre ++ p.sep ++ hi
        | .infinite _ => k < incrementBytes p.pre) := by
    unfold Prefixed.boundedConf InRange
    cases conf.minValue <;> cases conf.maxValue <;>
      simp [AboveMin, BelowMax, Prefixed.withKeyPrefix]
  rw [e]
  unfold Passes
  refine and_congr_right fun h => ?_
  cases conf.maxValue with
  | finite _ => exact Iff.rfl
  | infinite _ => exact increment_reach _ (hlow h)

/-- With a maximum not above the minimum, the bounds check lets pass the minimum alone. -/
theorem crossed_bounds {lo hi k : Bytes} {mi rv : Bool} (h : ¬ lo < hi)
    (hk : TraverseConfig.inBounds ⟨.finite lo, mi, .finite hi, false, rv⟩ k = true) : k = lo := by
  simp only [TraverseConfig.inBounds, LimitValue.cmp] at hk
  split at hk
  · cases hk
  · rename_i he; exact ((bcmp_eq_iff _ _).mp he).symm
  · rename_i h1
    rw [bcmp_lt_iff] at h1
    split at hk
    · rename_i h2
      rw [bcmp_gt_iff] at h2
      exact absurd (blt_trans h1 h2) h
    · cases hk
    · cases hk

theorem bounded_sound (p : Prefixed) {b : TraverseConfigBuilder} {conf : TraverseConfig} (hb : b.build = .ok conf)
    (hu : Uncrossed p conf) : (p.boundedConf conf).Sound := by
  obtain ⟨hx, hy⟩ := hu
  have hge : ∀ y, p.pre < p.pre ++ p.sep ++ y ∨ p.pre ++ p.sep ++ y = p.pre := fun y => by
    by_cases h : p.pre = p.pre ++ p.sep ++ y
    · exact .inr h.symm
    · exact .inl (blt_of_prefix ⟨p.sep ++ y, by simp⟩ h)
  refine sound_of ?_
  intro lo hlo hinc
  unfold Prefixed.boundedConf at hlo hinc ⊢
  cases hm : conf.minValue with
  | infinite i =>
    rw [hm] at hlo
    simp only [LimitValue.finite.injEq] at hlo
    subst hlo
    cases hM : conf.maxValue with
    | infinite j => exact .inl ((increment_reach _ (.inr rfl)).mpr (.inl rfl))
    | finite hi =>
      rcases hge hi with h | h
      · exact .inl h
      · have h' : p.sep ++ hi = [] := List.append_cancel_left (as := p.pre) (by rw [← List.append_assoc, h, List.append_nil])
        rw [List.append_eq_nil_iff] at h'
        exact .inr ⟨hy i hm (by rw [hM, h'.2]) h'.1, h.symm⟩
  | finite lo' =>
    rw [hm] at hlo hinc
    simp only [LimitValue.finite.injEq] at hlo
    subst hlo
    cases hM : conf.maxValue with
    | infinite j =>
      refine .inl ((increment_reach _ (hge lo')).mpr ?_)
      rcases hx lo' j hm hM hinc with h | h
      · exact .inr ⟨⟨p.sep ++ lo', by simp⟩, h⟩
      · exact .inl (by rw [List.append_assoc, h, List.append_nil])
    | finite hi =>
      simp only [BelowMax, Prefixed.withKeyPrefix, append_lt_iff, append_eq_iff]
      rcases build_ordered hb hm hM with h | ⟨h, _, h'⟩
      · exact .inl h
      · exact .inr ⟨h', h⟩

theorem sub_exact {s : St} {d : Db} (hd : Holds s d) (h2 : 2 ≤ s.core.length) (p : Prefixed)
    {b : TraverseConfigBuilder} {conf : TraverseConfig} (hb : b.build = .ok conf)
    (hu : Uncrossed p conf) :
    ∃ (all : List KeyValueData) (N : Nat),
      (if conf.reversed then all.reverse else all).Pairwise (fun a b => a.key < b.key) ∧
      (∀ e, e ∈ all ↔ (exec (.get e.key) s).1 = .got (some (e.seq, e.value)) ∧ Passes p conf e.key) ∧
      ∀ sched, ∃ xs rest, all = xs ++ rest ∧ (∀ e ∈ xs, p.pre.length + p.sep.length ≤ e.key.length) ∧
        ((∃ fin, (p.exec (.traverse b sched) s).1 =
            .items (xs.map fun e => .ok { e with key := e.key.drop (p.pre.length + p.sep.length) }) fin ∧
            (fin = true → rest = []) ∧ (N ≤ sched.count true → fin = true)) ∨
          (p.exec (.traverse b sched) s).1 = .error (.panic "prefixed.rs:171 key.drain(..len_drain)") ∧
            ∃ e rest', rest = e :: rest' ∧ e.key.length < p.pre.length + p.sep.length) := by
  have hS := bounded_sound p hb hu
  rcases hd.store with hbare | ⟨H, t, ht, hc, hcon⟩
  · have := hbare.1; omega
  have hl := listing_isListing ht hcon hS
  let bc := p.boundedConf conf
  refine ⟨(listing s.core bc t).map (kvOf s.core), t.cost, ?_, ?_, fun sched => ?_⟩
  · have h1 := hl.1
    rw [boundedConf_reversed] at h1
    exact h1
  · intro e
    rw [hl.2 e, boundedConf_range]
    have hg : (exec (.get e.key) s).1 = .got (d.map e.key) := (exec_refines hd (.get e.key)).1
    rw [hg, Db.entry_eq]
    refine and_congr_left fun _ => ?_
    cases hm : d.map e.key with
    | none => simp
    | some z =>
      simp only [Option.map_some, Option.some.injEq, Reply.got.injEq]
      constructor
      · intro h; rw [← h]
      · intro h; rw [h]
  · obtain ⟨fs, s1, h1, e1, hst⟩ := traverse_run ht hd.wf hc bc
    obtain ⟨xs, rest, ys, s2, _, ho, hy, hres⟩ := drive_run_err (c := s.core) (post := p.strip)
      (g := fun q => p.stripE (.ok (kvOf s.core q))) hS sched s1 fs _ _ e1.core hst e1.wf
      (fun q _ s' => by rw [p.strip_eq])
    have hlong : ∀ q y, p.stripE (.ok (kvOf s.core q)) = .ok y → p.pre.length + p.sep.length ≤ (kvOf s.core q).key.length ∧
        y = .ok { kvOf s.core q with key := (kvOf s.core q).key.drop (p.pre.length + p.sep.length) } := by
      intro q y h
      unfold Prefixed.stripE at h
      simp only [] at h
      split at h
      · rename_i hle
        injection h with h
        exact ⟨hle, h.symm⟩
      · cases h
    have hys : ∀ (xs : List Nat) ys, xs.map (fun q => p.stripE (.ok (kvOf s.core q))) = ys.map Except.ok →
        (∀ e ∈ xs.map (kvOf s.core), p.pre.length + p.sep.length ≤ e.key.length) ∧
        ys = (xs.map (kvOf s.core)).map fun e => .ok { e with key := e.key.drop (p.pre.length + p.sep.length) } := by
      intro xs
      induction xs with
      | nil => intro ys h; cases ys with
        | nil => simp
        | cons _ _ => cases h
      | cons q xs ih =>
        intro ys h
        cases ys with
        | nil => cases h
        | cons y ys =>
          simp only [List.map_cons, List.cons.injEq] at h
          obtain ⟨i1, i2⟩ := ih ys h.2
          obtain ⟨j1, j2⟩ := hlong q y h.1
          refine ⟨?_, by rw [List.map_cons, List.map_cons, ← i2, j2]⟩
          intro e he
          rw [List.map_cons, List.mem_cons] at he
          rcases he with rfl | he
          · exact j1
          · exact i1 e he
    obtain ⟨k1, k2⟩ := hys xs ys hy
    refine ⟨xs.map (kvOf s.core), rest.map (kvOf s.core), by rw [ho, List.map_append], k1, ?_⟩
    have hcol : p.collect sched conf s = drive p.strip sched fs s1 := by
      unfold Prefixed.collect
      rw [bind_ok h1]
    have hex : (p.exec (.traverse b sched) s).1 = (replyOf (p.traverseSession b sched)
        (fun p => .items p.1 p.2) s).1 := rfl
    rcases hres with ⟨fin, h3, hfin⟩ | ⟨q, rest', e, h3, h4, h5⟩
    · refine .inl ⟨fin.isNone, ?_, ?_, ?_⟩
      · rw [hex]
        unfold replyOf Prefixed.traverseSession
        rw [hb]
        simp only []
        rw [bind_ok (hcol.trans h3), ← k2]
        rfl
      · intro hf
        cases fin with
        | some fs => cases hf
        | none => simp only at hfin; rw [hfin]; rfl
      · intro hcount
        cases fin with
        | none => rfl
        | some fs =>
          obtain ⟨fuel', hst', hle⟩ := hfin
          have := hst'.pos
          omega
    · have hshort : ¬ p.pre.length + p.sep.length ≤ (kvOf s.core q).key.length ∧
          e = .panic "prefixed.rs:171 key.drain(..len_drain)" := by
        unfold Prefixed.stripE at h4
        simp only [] at h4
        split at h4
        · cases h4
        · rename_i hle
          injection h4 with h4
          exact ⟨hle, h4.symm⟩
      refine .inr ⟨?_, kvOf s.core q, rest'.map (kvOf s.core), by rw [h3]; rfl, by omega⟩
      rw [hex]
      unfold replyOf Prefixed.traverseSession
      rw [hb]
      simp only []
      rw [bind_error (hcol.trans h5), hshort.2]

/-- What a traversal of a sub-database does, exactly, for every prefix, separator and content: it
passes over the stored keys `Passes` describes, in order, and yields each without its first bytes,
as many as prefix and separator have; on the first that has not so many it panics.

Left out are only bounds that cross when they are put together: an inclusive lower bound and no upper
one, under a prefix that is empty or ends in 255; and everything below the empty key, where there is
no separator (`sub_crossed`). -/
theorem sub_traversal_exact {s : St} (hs : Mixed s) (h2 : 2 ≤ s.core.length) (p : Prefixed)
    {b : TraverseConfigBuilder} {conf : TraverseConfig} (hb : b.build = .ok conf)
    (hx : ∀ lo i, conf.minValue = .finite lo → conf.maxValue = .infinite i → conf.minInclusive = true →
      (∃ last, p.pre.getLast? = some last ∧ last ≠ 255) ∨ p.sep ++ lo = [])
    (hy : ∀ i, conf.minValue = .infinite i → conf.maxValue = .finite [] → p.sep = [] → conf.maxInclusive = true) :
    ∃ (all : List KeyValueData) (N : Nat),
      (if conf.reversed then all.reverse else all).Pairwise (fun a b => a.key < b.key) ∧
      (∀ e, e ∈ all ↔ (exec (.get e.key) s).1 = .got (some (e.seq, e.value)) ∧ Passes p conf e.key) ∧
      ∀ sched, ∃ xs rest, all = xs ++ rest ∧ (∀ e ∈ xs, p.pre.length + p.sep.length ≤ e.key.length) ∧
        ((∃ fin, (p.exec (.traverse b sched) s).1 =
            .items (xs.map fun e => .ok { e with key := e.key.drop (p.pre.length + p.sep.length) }) fin ∧
            (fin = true → rest = []) ∧ (N ≤ sched.count true → fin = true)) ∨
          (p.exec (.traverse b sched) s).1 = .error (.panic "prefixed.rs:171 key.drain(..len_drain)") ∧
            ∃ e rest', rest = e :: rest' ∧ e.key.length < p.pre.length + p.sep.length) := by
  obtain ⟨d, hd⟩ := hs.holds
  exact sub_exact hd h2 p hb ⟨hx, hy⟩

/-- A database with a key of the sub-database, one of another whose prefix continues this one, and one
that is the prefix itself: forwards the traversal panics at once, backwards after two items. -/
example :
    let p : Prefixed := ⟨[97], defaultSeparator⟩
    let s := (exec (.put [97] none) (exec (.put [97, 98, 0, 5] none) (p.exec (.put [3] none) St.init).2).2).2
    2 ≤ s.core.length ∧
    (p.exec (.traverse {} (List.replicate 30 true)) s).1 = .error (.panic "prefixed.rs:171 key.drain(..len_drain)") ∧
    (p.exec (.traverse { reversed := some true } [true, true, true, true, true, true, true, true]) s).1 =
      .items [.ok ⟨2, [0, 5], none⟩, .ok ⟨1, [3], none⟩] false ∧
    (p.exec (.traverse { reversed := some true } (List.replicate 30 true)) s).1 =
      .error (.panic "prefixed.rs:171 key.drain(..len_drain)") := by decide +kernel

theorem traverse_items {p : Prefixed} {s : St} {b : TraverseConfigBuilder} {conf : TraverseConfig} (hb : b.build = .ok conf)
    {sched : List Bool} {xs : List (Except Err KeyValueData)} {fin : Bool}
    (hx : (p.exec (.traverse b sched) s).1 = .items xs fin) : ∃ fin', (p.collect sched conf s).1 = .ok (xs, fin') := by
  change (replyOf (p.traverseSession b sched) _ s).1 = _ at hx
  unfold replyOf Prefixed.traverseSession at hx
  rw [hb] at hx
  simp only [] at hx
  cases hc : p.collect sched conf s with
  | mk r s' =>
    cases r with
    | error e => rw [bind_error hc] at hx; cases hx
    | ok a =>
      rw [bind_ok hc] at hx
      obtain ⟨ys, f⟩ := a
      simp only [pure, M.pure] at hx
      injection hx with h1 h2
      exact ⟨f, by rw [h1]⟩

/-- Where the bounds cross, at most the entry at the bound that was given (or at the empty key) is
yielded: in the first case whatever else is above it, in the second though nothing is in the
range. -/
theorem sub_crossed {s : St} (hs : Mixed s) (p : Prefixed) {b : TraverseConfigBuilder} {conf : TraverseConfig}
    (hb : b.build = .ok conf) {sched : List Bool} {xs : List (Except Err KeyValueData)} {fin : Bool}
    (hx : (p.exec (.traverse b sched) s).1 = .items xs fin) :
    (∀ lo i, conf.minValue = .finite lo → conf.maxValue = .infinite i → p.sep ++ lo ≠ [] →
      (p.pre = [] ∨ p.pre.getLast? = some 255) →
      ∀ x ∈ xs, ∃ q v, x = .ok ⟨q, lo, v⟩ ∧ (p.exec (.get lo) s).1 = .got (some (q, v))) ∧
    (∀ i, conf.minValue = .infinite i → conf.maxValue = .finite [] → p.sep = [] → conf.maxInclusive = false →
      ∀ x ∈ xs, ∃ q v, x = .ok ⟨q, [], v⟩ ∧ (p.exec (.get []) s).1 = .got (some (q, v))) := by
  obtain ⟨fin', hcol⟩ := traverse_items hb hx
  have h1 := sub_yields hs p sched conf
  rw [hcol] at h1
  have hfin : ∀ key y, (∀ k, (p.boundedConf conf).inBounds k = true → k = key) → key = p.pre ++ p.sep ++ y →
      ∀ x ∈ xs, ∃ q v, x = .ok ⟨q, y, v⟩ ∧ (p.exec (.get y) s).1 = .got (some (q, v)) := by
    intro key y hk he x hx
    obtain ⟨e, k, rfl, hg, hin, -, hd⟩ := h1 x hx
    obtain rfl := hk k hin
    subst he
    rw [List.drop_append_of_le_length (by simp), List.drop_eq_nil_of_le (by simp), List.nil_append] at hd
    subst hd
    exact ⟨e.seq, e.value, rfl, hg⟩
  constructor
  · intro lo i hm hM hne hp
    refine hfin (p.pre ++ p.sep ++ lo) lo ?_ rfl
    intro k hin
    have hinc : incrementBytes p.pre = p.pre ++ [0] := by
      unfold incrementBytes
      rcases hp with h | h
      · rw [h]; rfl
      · rw [h]; simp
    have hbc : p.boundedConf conf = ⟨.finite (p.pre ++ p.sep ++ lo), conf.minInclusive, .finite (p.pre ++ [0]), false, conf.reversed⟩ := by
      unfold Prefixed.boundedConf
      rw [hm, hM, hinc]
      rfl
    have hge : ¬ p.pre ++ p.sep ++ lo < p.pre ++ [0] := by
      rw [List.append_assoc, append_lt_iff]
      cases h : p.sep ++ lo with
      | nil => exact absurd h hne
      | cons z zs =>
        rw [List.cons_lt_cons_iff]
        rintro (h3 | ⟨_, h3⟩)
        · rw [UInt8.lt_iff_toNat_lt] at h3; simp at h3
        · simp at h3
    rw [hbc] at hin
    exact crossed_bounds hge hin
  · intro i hm hM hsep hxi
    refine hfin p.pre [] ?_ (by rw [hsep]; simp)
    intro k hin
    have hbc : p.boundedConf conf = ⟨.finite p.pre, true, .finite p.pre, false, conf.reversed⟩ := by
      unfold Prefixed.boundedConf
      rw [hm, hM, hxi]
      simp [Prefixed.withKeyPrefix, hsep]
    rw [hbc] at hin
    exact crossed_bounds (blt_irrefl _) hin

/-- Both do happen: of the two entries above the bound only the one at the bound is yielded; and an
entry is yielded though the range is empty. -/
example :
    (let p : Prefixed := ⟨[255], defaultSeparator⟩
     let s := (p.exec (.put [6] none) (p.exec (.put [5] none) St.init).2).2
     (p.exec (.traverse { minValue := some (.finite [5]) } (List.replicate 30 true)) s).1 = .items [.ok ⟨1, [5], none⟩] true) ∧
    (let p : Prefixed := ⟨[7], []⟩
     let s := (p.exec (.put [] none) St.init).2
     (p.exec (.traverse { maxValue := some (.finite []), maxInclusive := some false } (List.replicate 30 true)) s).1 =
       .items [.ok ⟨1, [], none⟩] true) := by decide +kernel

/-- Missing from the full claim: empty prefixes, prefixes ending in the byte 255, databases holding
keys that begin with the prefix but not with prefix and separator, and limits that are infinite on
the wrong side; in all of these it is false.  Otherwise a traversal of a sub-database with any
accepted configuration, bounded on no side, one or both, yields exactly its entries in the range,
in order, under the keys the sub-database knows them by. -/
theorem sub_open_traversal_partial {s : St} (hs : Mixed s) (h2 : 2 ≤ s.core.length) (p : Prefixed) {last : UInt8}
    (hlast : p.pre.getLast? = some last) (h255 : last ≠ 255) (hsep : p.sep ≠ [])
    (hown : ∀ k, (exec (.get k) s).1 ≠ .got none → p.pre <+: k → p.pre ++ p.sep <+: k)
    {b : TraverseConfigBuilder} {conf : TraverseConfig} (hb : b.build = .ok conf)
    (hmin : conf.minValue ≠ .infinite .positive) (hmax : conf.maxValue ≠ .infinite .negative) :
    ∃ (full : List KeyValueData) (N : Nat), SubLists p s conf full ∧ ∀ sched, ∃ xs fin,
      (p.exec (.traverse b sched) s).1 = .items (xs.map .ok) fin ∧ xs <+: full ∧ (fin = true → xs = full) ∧
      (N ≤ sched.count true → fin = true) := by
  obtain ⟨d, hd⟩ := hs.holds
  obtain ⟨b0, hb0⟩ : ∃ b0, p.pre = b0 ++ [last] := by
    refine ⟨p.pre.dropLast, ?_⟩
    have hne : p.pre ≠ [] := by intro h; rw [h] at hlast; cases hlast
    have := List.dropLast_append_getLast hne
    rw [List.getLast?_eq_some_getLast hne] at hlast
    injection hlast with hl
    rw [hl] at this
    exact this.symm
  have hinc := increment_range (p := b0) h255
  rw [← hb0] at hinc
  have hown' : ∀ k, d.map k ≠ none → p.pre <+: k → ∃ y, k = p.pre ++ p.sep ++ y := by
    intro k hk hp
    have : (exec (.get k) s).1 = .got (d.map k) := (exec_refines hd (.get k)).1
    obtain ⟨y, hy⟩ := hown k (by rw [this]; intro h; injection h with h; exact hk h) hp
    exact ⟨y, hy.symm⟩
  -- pre ≤ P ++ y < end of prefix
  have hge : ∀ y, p.pre < p.pre ++ p.sep ++ y := fun y =>
    blt_of_prefix ⟨p.sep ++ y, by simp⟩ (by
      intro h
      have := congrArg List.length h
      have h0 : 0 < p.sep.length := List.length_pos_iff.mpr hsep
      rw [List.length_append, List.length_append] at this
      omega)
  have hlt : ∀ y, p.pre ++ p.sep ++ y < incrementBytes p.pre := fun y =>
    ((hinc (p.pre ++ p.sep ++ y)).mpr ⟨p.sep ++ y, by simp⟩).2
  have above : ∀ {y x : Bytes}, (p.pre ++ p.sep ++ y < x ∨ x = p.pre ++ p.sep ++ y) → p.pre < x := by
    intro y x h
    rcases h with h | rfl
    · exact List.lt_trans (hge y) h
    · exact hge y
  cases hm : conf.minValue with
  | infinite i =>
    cases i with
    | positive => exact absurd hm hmin
    | negative =>
      cases hM : conf.maxValue with
      | infinite j =>
        cases j with
        | negative => exact absurd hM hmax
        | positive =>
          have hbc : p.boundedConf conf = ⟨.finite p.pre, true, .finite (incrementBytes p.pre), false, conf.reversed⟩ := by
            unfold Prefixed.boundedConf
            rw [hm, hM]
          refine sub_traversal hd h2 p hb ?_ ?_
          · rw [hbc]
            refine sound_of ?_
            intro lo hlo _
            simp only [LimitValue.finite.injEq] at hlo
            subst hlo
            exact .inl ((hinc p.pre).mpr ⟨[], by simp⟩).2
          · intro x hx
            rw [hbc]
            simp only [InRange, AboveMin, BelowMax, hm, hM, true_and, and_true, Bool.false_eq_true, false_and, or_false]
            rw [hinc]
            exact ⟨fun h => hown' x hx h, fun ⟨y, hy⟩ => ⟨p.sep ++ y, by rw [hy]; simp⟩⟩
      | finite hi =>
        have hbc : p.boundedConf conf = ⟨.finite p.pre, true, .finite (p.pre ++ p.sep ++ hi), conf.maxInclusive, conf.reversed⟩ := by
          unfold Prefixed.boundedConf
          rw [hm, hM]
          rfl
        refine sub_traversal hd h2 p hb ?_ ?_
        · rw [hbc]
          refine sound_of ?_
          intro lo hlo _
          simp only [LimitValue.finite.injEq] at hlo
          subst hlo
          exact .inl (hge hi)
        · intro x hx
          rw [hbc]
          simp only [InRange, AboveMin, BelowMax, hm, hM, true_and]
          constructor
          · rintro ⟨h3, h4⟩
            have hpre : p.pre <+: x := between_prefix p.pre (a := []) (b := p.sep ++ hi) (by simpa using h3)
              (by rw [← List.append_assoc]; exact h4.imp id And.right)
            obtain ⟨y, rfl⟩ := hown' x hx hpre
            simp only [append_lt_iff, append_eq_iff] at h4
            exact ⟨y, rfl, h4⟩
          · rintro ⟨y, rfl, h4⟩
            simp only [append_lt_iff, append_eq_iff]
            exact ⟨.inl (hge y), h4⟩
  | finite lo =>
    cases hM : conf.maxValue with
    | infinite j =>
      cases j with
      | negative => exact absurd hM hmax
      | positive =>
        have hbc : p.boundedConf conf = ⟨.finite (p.pre ++ p.sep ++ lo), conf.minInclusive, .finite (incrementBytes p.pre), false, conf.reversed⟩ := by
          unfold Prefixed.boundedConf
          rw [hm, hM]
          rfl
        refine sub_traversal hd h2 p hb ?_ ?_
        · rw [hbc]
          refine sound_of ?_
          intro lo' hlo _
          simp only [LimitValue.finite.injEq] at hlo
          subst hlo
          exact .inl (hlt lo)
        · intro x hx
          rw [hbc]
          simp only [InRange, AboveMin, BelowMax, hm, hM, and_true, Bool.false_eq_true, false_and, or_false]
          constructor
          · rintro ⟨h3, h4⟩
            have hpre : p.pre <+: x := (hinc x).mp ⟨.inl (above (h3.imp id And.right)), h4⟩
            obtain ⟨y, rfl⟩ := hown' x hx hpre
            simp only [append_lt_iff, append_eq_iff] at h3
            exact ⟨y, rfl, h3⟩
          · rintro ⟨y, rfl, h3⟩
            simp only [append_lt_iff, append_eq_iff]
            exact ⟨h3, hlt y⟩
    | finite hi => exact sub_bounded_traversal hs h2 p hb hm hM

/-- In particular the unbounded traversal yields exactly what the sub-database holds. -/
theorem sub_full_traversal_partial {s : St} (hs : Mixed s) (h2 : 2 ≤ s.core.length) (p : Prefixed) {last : UInt8}
    (hlast : p.pre.getLast? = some last) (h255 : last ≠ 255) (hsep : p.sep ≠ [])
    (hown : ∀ k, (exec (.get k) s).1 ≠ .got none → p.pre <+: k → p.pre ++ p.sep <+: k) :
    ∃ (full : List KeyValueData) (N : Nat), full.Pairwise (fun a b => a.key < b.key) ∧
      (∀ e, e ∈ full ↔ (p.exec (.get e.key) s).1 = .got (some (e.seq, e.value))) ∧
      ∀ sched, N ≤ sched.count true → (p.exec (.traverse {} sched) s).1 = .items (full.map .ok) true := by
  obtain ⟨full, N, h1, h3⟩ := sub_open_traversal_partial hs h2 p hlast h255 hsep hown (b := {}) (conf := .default) rfl
    (by simp [TraverseConfig.default]) (by simp [TraverseConfig.default])
  refine ⟨full, N, h1.1, fun e => (h1.2 e).trans (and_iff_left (default_range _)), fun sched hN => ?_⟩
  obtain ⟨xs, fin, g1, _, g3, g4⟩ := h3 sched
  have hf := g4 hN
  rw [g1, g3 hf, hf]

theorem Db.after_target : ∀ (cs : List Cmd) (d : Db) {k : Bytes}, (∀ c ∈ cs, c.target ≠ some k) →
    (d.after cs).map k = d.map k := by
  intro cs
  induction cs with
  | nil => intro d k _; rfl
  | cons c cs ih =>
    intro d k h
    have := ih (d.next c) (fun c' hc => h c' (List.mem_cons_of_mem _ hc))
    exact this.trans (d.next_other c (h c (by simp)))

/-- A key that is stored was written by one of the calls. -/
theorem stored_was_written (xs : List (Option Prefixed × Cmd)) {k : Bytes}
    (h : (exec (.get k) (runVia xs St.init).2).1 ≠ .got none) : ∃ x ∈ xs, (expandVia x).target = some k := by
  have hd := runVia_holds xs init_holds
  have hg : (exec (.get k) (runVia xs St.init).2).1 = .got ((Db.empty.after (xs.map expandVia)).map k) :=
    (exec_refines hd (.get k)).1
  rcases Classical.em (∃ x ∈ xs, (expandVia x).target = some k) with h' | h'
  · exact h'
  · refine absurd ?_ h
    rw [hg, Db.after_target]
    · rfl
    · intro c hc
      obtain ⟨x, hx, rfl⟩ := List.mem_map.mp hc
      exact fun e => h' ⟨x, hx, e⟩

/-- The condition on the rest of the database holds if every write to a key beginning with the
prefix is made through the sub-database (or at least to a key of it). -/
theorem own_keys (xs : List (Option Prefixed × Cmd)) (p : Prefixed)
    (h : ∀ x ∈ xs, ∀ k, (expandVia x).target = some k → p.pre <+: k → p.pre ++ p.sep <+: k) :
    ∀ k, (exec (.get k) (runVia xs St.init).2).1 ≠ .got none → p.pre <+: k → p.pre ++ p.sep <+: k := by
  intro k hk hp
  obtain ⟨x, hx, he⟩ := stored_was_written xs hk
  exact h x hx k he hp

/-- The demonstration meets all the conditions, and the traversal has something to yield. -/
example : (∀ k, (exec (.get k) (runVia subDemo St.init).2).1 ≠ .got none → [1] <+: k → [1, 0] <+: k) ∧
    2 ≤ (runVia subDemo St.init).2.core.length ∧
    (match (Prefixed.exec ⟨[1], [0]⟩ (.traverse {} (List.replicate 120 true)) (runVia subDemo St.init).2).1 with
      | .items xs true => decide (xs.map (fun x => x.toOption.map (·.key)) =
          [some [], some [0], some [0, 0], some [1], some [2], some [4], some [5], some [6], some [7], some [8], some [9],
            some [10], some [11]])
      | _ => false) = true := by
  refine ⟨own_keys subDemo ⟨[1], [0]⟩ ?_, by decide +kernel, by decide +kernel⟩
  intro x hx k hk
  have : (subDemo.all fun x => match (expandVia x).target with
      | none => true
      | some k => !([1] : Bytes).isPrefixOf k || ([1, 0] : Bytes).isPrefixOf k) = true := by decide +kernel
  have := List.all_eq_true.mp this x hx
  rw [hk] at this
  simp only [Bool.or_eq_true, Bool.not_eq_true', List.isPrefixOf_iff_prefix] at this
  intro hp
  rcases this with h | h
  · rw [← List.isPrefixOf_iff_prefix, h] at hp; cases hp
  · exact h

end Hyperbee
