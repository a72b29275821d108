import Verif.Proof.Reach
import Verif.Props.Demo
/-!
# Properties of the contents and of whole histories
-/

namespace Hyperbee

/-! ## C07 -/

theorem Holds.map_none {s : St} {d : Db} (h : Holds s d) (hv : d.version ≤ 1) (k : Bytes) : d.map k = none := by
  rcases h.store with hb | ⟨H, t, ht, _⟩
  · exact hb.2 k
  · have := ht.two; have := h.ver; omega

theorem Holds.next_zero {s : St} {d : Db} (h : Holds s d) (c : Cmd) :
    (d.next c).version = 0 ↔ d.version = 0 ∧ c.starts = false := by
  cases c with
  | version => simp [Db.next, Cmd.starts]
  | get k => simp [Db.next, Cmd.starts]
  | traverse b sched => simp [Db.next, Cmd.starts]
  | reopen => simp [Db.next, Cmd.starts]
  | put k v => simp [Db.next, Cmd.starts, Db.write]
  | putCas k v f =>
    simp only [Db.next, Cmd.starts]
    split
    · simp [Db.write]
    · simp [Db.withHeader, Db.nextSeq]
  | createHeader m => simp [Db.next, Cmd.starts, Db.withHeader, Db.nextSeq]
  | del k =>
    simp only [Db.next, Cmd.starts]
    split
    · rename_i hk
      simp only [Db.remove, Nat.add_eq_zero_iff, and_true]
      constructor
      · simp
      · intro h0
        rw [h.map_none (by omega)] at hk
        cases hk
    · simp
  | delCas k f =>
    simp only [Db.next, Cmd.starts]
    split
    · simp
    · rename_i e he
      have hne : d.version ≠ 0 := by
        intro h0
        rw [Db.entry, h.map_none (by omega)] at he
        cases he
      split
      · simp [Db.remove, hne]
      · simp [hne]

theorem Holds.after_zero : ∀ (cs : List Cmd) {s : St} {d : Db}, Holds s d →
    ((d.after cs).version = 0 ↔ d.version = 0 ∧ cs.any Cmd.starts = false) := by
  intro cs
  induction cs with
  | nil => intro s d _; simp [Db.after]
  | cons c cs ih =>
    intro s d h
    rw [Db.after, ih (exec_refines h c).2, h.next_zero]
    simp [and_assoc]

/-- C07.  The version is the header (once some call had to write it) plus the number of effective
writes. -/
theorem version_counts (cs : List Cmd) :
    (exec .version (runSt cs St.init)).1 =
      .version ((if cs.any Cmd.starts then 1 else 0) + (effects cs (runReplies cs St.init)).length) := by
  have h := (run_refines cs Holds.init).2
  have hl := logged cs
  have hz := Holds.after_zero cs Holds.init
  rw [show (exec .version (runSt cs St.init)).1 = .version (Db.empty.after cs).version from
    (exec_refines h .version).1]
  congr 1
  have h0 : Db.empty.version = 0 := rfl
  simp only [h0, true_and] at hz
  by_cases hs : cs.any Cmd.starts = true
  · have hne : (Db.empty.after cs).version ≠ 0 := by rw [ne_eq, hz, hs]; simp
    rw [if_pos hs]
    by_cases he : effects cs (runReplies cs St.init) = []
    · have := hl.fresh (by rw [he]; rfl)
      rw [he]; simp only [List.length_nil]; omega
    · have := hl.count (by simpa using he)
      rw [List.length_reverse] at this
      omega
  · have hs' : cs.any Cmd.starts = false := by simpa using hs
    rw [if_neg hs]
    have hv := hz.mpr hs'
    by_cases he : effects cs (runReplies cs St.init) = []
    · rw [he, hv]; rfl
    · have := hl.count (by simpa using he)
      omega

/-- C07, continued.  No call lowers the version, in any state whatever. -/
theorem version_monotone (c : Cmd) (s : St) : s.core.length ≤ (exec c s).2.core.length := by
  obtain ⟨hdr, blk, h, _⟩ := exec_appends c s
  rw [h]; simp only [List.length_append]; omega

example : (exec .version (runSt demo St.init)).1 = .version 40 := by decide +kernel
example : (exec .version St.init).1 = .version 0 := by decide +kernel
example : (exec .version (runSt [.putCas [] none (fun _ _ => false), .del [1]] St.init)).1 = .version 1 := by
  decide +kernel

/-! ## C16 -/

/-- C16.  A handle with whatever it has cached, and one just opened on the same core, give the same
replies to every sequence of calls and leave the same core. -/
theorem cache_invisible {s : St} (hs : Reachable s) (cs : List Cmd) :
    runReplies cs (St.open s.core) = runReplies cs s ∧ (runSt cs (St.open s.core)).core = (runSt cs s).core := by
  obtain ⟨d, h⟩ := hs.holds
  have := runs_same cs h h.stored.open rfl
  exact ⟨this.1.symm, this.2.symm⟩

/-- C16, continued.  The same for any two handles with the same core, however each came about. -/
theorem cores_decide {s s' : St} (hs : Reachable s) (hs' : Reachable s') (h : s'.core = s.core) (cs : List Cmd) :
    runReplies cs s = runReplies cs s' ∧ (runSt cs s).core = (runSt cs s').core := by
  obtain ⟨d, h1⟩ := hs.holds
  obtain ⟨d', h2⟩ := hs'.holds
  exact runs_same cs h1 h2 h

/-- The cache is not empty: a warm and a cold handle are different states. -/
example : ((runSt demo St.init).cache 39).isSome = false ∧ ((runSt demo St.init).cache 38).isSome = true ∧
    (runSt demo St.init).heap.length = 30 := by decide +kernel

/-! ## C19 -/

/-- C19.  No call on a reachable state panics, runs past the step bounds, or fails, except that
`traverse` refuses a bad configuration or a database without a root, and `create_header` a core that
has one. -/
theorem no_failure {s : St} (hs : Reachable s) (c : Cmd) :
    match c with
    | .createHeader _ =>
      (s.core = [] ∧ (exec c s).1 = .created 1) ∨ (s.core ≠ [] ∧ (exec c s).1 = .error .headerAlreadyExists)
    | .traverse b _ =>
      (b.build = .error .traverseConfigBuilder ∧ (exec c s).1 = .error .traverseConfigBuilder) ∨
      (s.core.length ≤ 1 ∧ (exec c s).1 = .error .noRoot) ∨
      ∃ (xs : List KeyValueData) (finished : Bool), (exec c s).1 = .items (xs.map .ok) finished
    | _ => ∀ e, (exec c s).1 ≠ .error e := by
  obtain ⟨d, h⟩ := hs.holds
  have hr := (exec_refines h c).1
  cases c with
  | createHeader m =>
    simp only [Db.Returns, h.ver] at hr
    by_cases h0 : s.core = []
    · left; exact ⟨h0, by simpa [h0] using hr⟩
    · right; exact ⟨h0, by simpa [h0] using hr⟩
  | traverse b sched =>
    simp only [Db.Returns] at hr
    simp only []
    cases hb : b.build with
    | error e =>
      rw [hb] at hr
      have : e = .traverseConfigBuilder := by
        unfold TraverseConfigBuilder.build at hb
        split at hb <;> cases hb
        rfl
      subst this
      exact .inl ⟨rfl, hr⟩
    | ok conf =>
      rw [hb] at hr
      simp only [] at hr
      split at hr
      · rename_i hv
        exact .inr (.inl ⟨by rw [← h.ver]; exact hv, hr⟩)
      · obtain ⟨full, xs, fin, _, h2, _⟩ := hr
        exact .inr (.inr ⟨xs, fin, h2⟩)
  | version => intro e; rw [hr]; simp
  | get k => intro e; rw [hr]; simp
  | put k v => intro e; rw [hr]; simp
  | putCas k v f => intro e; rw [hr]; simp
  | del k => intro e; rw [hr]; simp
  | delCas k f => intro e; rw [hr]; simp
  | reopen => intro e; rw [hr]; simp

example : (exec (.createHeader none) (runSt demo St.init)).1 = .error .headerAlreadyExists := by decide +kernel

/-! ## C36 and C38 -/

/-- What a write does to the value under a key. -/
def stepValue (k : Bytes) (x : Option (Option Bytes)) : Option Write → Option (Option Bytes)
  | some (.set k' v) => if k' = k then some v else x
  | some (.clear k') => if k' = k then none else x
  | none => x

/-- What a call does to the value under a key, judged by its reply. -/
theorem Db.value_next {d : Db} {c : Cmd} {r : Reply} (h : d.Returns c r) (k : Bytes) :
    ((d.next c).map k).map (·.2) = stepValue k ((d.map k).map (·.2)) (effect c r) := by
  have eset : ∀ k' v, ((d.write k' v).map k).map (·.2) = if k' = k then some v else (d.map k).map (·.2) := by
    intro k' v
    by_cases hk : k' = k
    · subst hk; simp [Db.write]
    · have : k ≠ k' := fun e => hk e.symm
      simp [Db.write, hk, this]
  have eclr : ∀ k', ((d.remove k').map k).map (·.2) = if k' = k then none else (d.map k).map (·.2) := by
    intro k'
    by_cases hk : k' = k
    · subst hk; simp [Db.remove]
    · have : k ≠ k' := fun e => hk e.symm
      simp [Db.remove, hk, this]
  cases c with
  | version => cases h; rfl
  | get _ => cases h; rfl
  | put k' v => cases h; exact eset k' v
  | putCas k' v f =>
    simp only [Db.Returns] at h
    subst h
    simp only [Db.next]
    cases hcas : f (d.entry k') ⟨d.nextSeq, k', v⟩ with
    | true => exact eset k' v
    | false => rfl
  | del k' =>
    simp only [Db.Returns] at h
    subst h
    simp only [Db.next]
    cases hd : d.map k' with
    | none => rfl
    | some e => exact eclr k'
  | delCas k' f =>
    simp only [Db.Returns] at h
    subst h
    simp only [Db.next]
    cases hd : d.entry k' with
    | none => rfl
    | some e =>
      simp only [Option.map_some]
      cases hcas : f e with
      | true => exact eclr k'
      | false => rfl
  | createHeader m =>
    simp only [Db.Returns] at h
    subst h
    have : effect (.createHeader m) (if d.version = 0 then .created 1 else .error .headerAlreadyExists) = none := by
      split <;> rfl
    rw [this]; rfl
  | traverse b sched =>
    have : effect (.traverse b sched) r = none := by cases r <;> rfl
    rw [this]; rfl
  | reopen => cases h; rfl

theorem Db.value_after : ∀ (cs : List Cmd) {d : Db} {rs : List Reply}, d.Answers cs rs → ∀ k,
    ((d.after cs).map k).map (·.2) =
      if (effects cs rs).any (fun w => w.key = k) then finalValue k (effects cs rs).reverse
      else (d.map k).map (·.2) := by
  intro cs
  induction cs with
  | nil => intro d rs h k; cases h; rfl
  | cons c cs ih =>
    intro d rs h k
    obtain ⟨r, rs', rfl, h1, h2⟩ := h
    rw [Db.after, ih h2 k, Db.value_next h1 k,
      show effects (c :: cs) (r :: rs') = (effect c r).toList ++ effects cs rs' from rfl]
    have hfind : ∀ (l : List Write) (w : Write), l.any (fun w => w.key = k) = true →
        finalValue k (l.reverse ++ [w]) = finalValue k l.reverse := by
      intro l w hl
      unfold finalValue
      rw [List.find?_append]
      have : (l.reverse.find? fun w => decide (w.key = k)).isSome := by
        rw [List.find?_isSome]
        simpa using hl
      obtain ⟨x, hx⟩ := Option.isSome_iff_exists.mp this
      rw [hx]; rfl
    have hnone : ∀ (l : List Write) (w : Write), l.any (fun w => w.key = k) = false →
        finalValue k (l.reverse ++ [w]) = finalValue k [w] := by
      intro l w hl
      unfold finalValue
      rw [List.find?_append]
      have : (l.reverse.find? fun w => decide (w.key = k)) = none := by
        rw [List.find?_eq_none]
        simpa using hl
      rw [this]; rfl
    cases he : effect c r with
    | none => simp [stepValue]
    | some w =>
      simp only [Option.toList_some, List.singleton_append, List.reverse_cons, List.any_cons]
      by_cases ha : (effects cs rs').any (fun w => w.key = k) = true
      · simp only [ha, Bool.or_true, if_true]
        rw [hfind _ _ ha]
      · have ha' : (effects cs rs').any (fun w => w.key = k) = false := by simpa using ha
        simp only [ha', Bool.or_false, Bool.false_eq_true, if_false]
        rw [hnone _ _ ha']
        cases w with
        | set k' v => by_cases hk : k' = k <;> simp [Write.key, finalValue, stepValue, hk]
        | clear k' => by_cases hk : k' = k <;> simp [Write.key, finalValue, stepValue, hk]

/-- The reply of a get, without the block number. -/
def Reply.value : Reply → Option (Option Bytes)
  | .got o => o.map (·.2)
  | _ => none

/-- C38.  The value read back is decided by the last effective write to that very key. -/
theorem value_of_last_write (cs : List Cmd) (k : Bytes) :
    (exec (.get k) (runSt cs St.init)).1.value = finalValue k (effects cs (runReplies cs St.init)).reverse := by
  obtain ⟨h1, h2⟩ := run_refines cs Holds.init
  rw [h2.get, Reply.value, Db.value_after cs h1 k]
  split
  · rfl
  · rename_i hn
    unfold finalValue
    have : ((effects cs (runReplies cs St.init)).reverse.find? fun w => decide (w.key = k)) = none := by
      rw [List.find?_eq_none]
      simpa using hn
    rw [this]; rfl

/-- C38.  Two histories that agree on the last write of every key have the same contents. -/
theorem contents_confluent (cs cs' : List Cmd)
    (h : ∀ k, finalValue k (effects cs (runReplies cs St.init)).reverse =
      finalValue k (effects cs' (runReplies cs' St.init)).reverse) (k : Bytes) :
    (exec (.get k) (runSt cs St.init)).1.value = (exec (.get k) (runSt cs' St.init)).1.value := by
  rw [value_of_last_write, value_of_last_write, h]

/-- Two histories the theorem applies to: twenty keys put in two different orders, one of them with
extra writes that are later undone. -/
def orderA : List Cmd := (List.range 20).map fun i => .put (demoKey i) (some (demoKey i))
def orderB : List Cmd :=
  ((List.range 20).map fun i => .put (demoKey (19 - i)) none) ++ [.put [77] none, .del [77]] ++
  ((List.range 20).map fun i => .put (demoKey (3 * i % 20)) (some (demoKey (3 * i % 20))))

example : ∀ i < 25, finalValue (demoKey i) (effects orderA (runReplies orderA St.init)).reverse =
    finalValue (demoKey i) (effects orderB (runReplies orderB St.init)).reverse := by decide +kernel
example : (runSt orderA St.init).core.length = 21 ∧ (runSt orderB St.init).core.length = 43 := by decide +kernel

/-- C36.  Once every key is gone, later contents are decided by the later writes alone. -/
theorem emptied_forgets {s : St} (hs : Reachable s) (he : ∀ k, (exec (.get k) s).1 = .got none) (cs : List Cmd)
    (k : Bytes) :
    (exec (.get k) (runSt cs s)).1.value = finalValue k (effects cs (runReplies cs s)).reverse := by
  obtain ⟨d, h⟩ := hs.holds
  obtain ⟨h1, h2⟩ := run_refines cs h
  have hd : d.map k = none := by have := he k; rw [h.get] at this; simpa using this
  rw [h2.get, Reply.value, Db.value_after cs h1 k, hd]
  split
  · rfl
  · rename_i hn
    unfold finalValue
    have : ((effects cs (runReplies cs s)).reverse.find? fun w => decide (w.key = k)) = none := by
      rw [List.find?_eq_none]
      simpa using hn
    rw [this]; rfl

/-- Databases with the same values under the same keys make the same writes effective. -/
theorem Db.blind_step {d d' : Db} (h : ∀ k, (d.map k).map (·.2) = (d'.map k).map (·.2)) {c : Cmd} (hc : c.Blind)
    {r r' : Reply} (hr : d.Returns c r) (hr' : d'.Returns c r') : effect c r = effect c r' := by
  have hent : ∀ k, (d.entry k).map (fun e => (e.key, e.value)) = (d'.entry k).map (fun e => (e.key, e.value)) := by
    intro k
    have := h k
    unfold Db.entry
    cases hd : d.map k <;> cases hd' : d'.map k <;> simp [hd, hd'] at this ⊢
    exact this
  cases c with
  | version => cases hr; cases hr'; rfl
  | get _ => cases hr; cases hr'; rfl
  | put k v => cases hr; cases hr'; rfl
  | putCas k v f =>
    simp only [Db.Returns] at hr hr'
    subst hr hr'
    rw [hc (d.entry k) (d'.entry k) ⟨d.nextSeq, k, v⟩ ⟨d'.nextSeq, k, v⟩ (hent k) rfl rfl]
    split <;> rfl
  | del k =>
    simp only [Db.Returns] at hr hr'
    subst hr hr'
    have := h k
    cases hd : d.map k <;> cases hd' : d'.map k <;> simp [hd, hd'] at this ⊢ <;> rfl
  | delCas k f =>
    simp only [Db.Returns] at hr hr'
    subst hr hr'
    have := hent k
    cases hd : d.entry k with
    | none =>
      cases hd' : d'.entry k with
      | none => rfl
      | some e' => simp [hd, hd'] at this
    | some e =>
      cases hd' : d'.entry k with
      | none => simp [hd, hd'] at this
      | some e' =>
        simp only [hd, hd', Option.map_some, Option.some.injEq, Prod.mk.injEq] at this ⊢
        rw [hc e e' this.1 this.2]
        cases f e' <;> rfl
  | createHeader m =>
    have : ∀ (e : Db), effect (.createHeader m) (if e.version = 0 then .created 1 else .error .headerAlreadyExists) = none := by
      intro e; split <;> rfl
    simp only [Db.Returns] at hr hr'
    rw [hr, hr', this, this]
  | traverse b sched =>
    have : ∀ r, effect (.traverse b sched) r = none := by intro r; cases r <;> rfl
    rw [this, this]
  | reopen => cases hr; cases hr'; rfl

theorem Db.blind_steps : ∀ (cs : List Cmd) {d d' : Db} {rs rs' : List Reply}, (∀ c ∈ cs, c.Blind) →
    (∀ k, (d.map k).map (·.2) = (d'.map k).map (·.2)) → d.Answers cs rs → d'.Answers cs rs' →
    effects cs rs = effects cs rs' := by
  intro cs
  induction cs with
  | nil => intro d d' rs rs' _ _ h h'; cases h; cases h'; rfl
  | cons c cs ih =>
    intro d d' rs rs' hb hd h h'
    obtain ⟨r, rs1, rfl, h1, h2⟩ := h
    obtain ⟨r', rs1', rfl, h1', h2'⟩ := h'
    have he := Db.blind_step hd (hb c (by simp)) h1 h1'
    simp only [effects, he]
    congr 1
    refine ih (fun c hc => hb c (by simp [hc])) ?_ h2 h2'
    intro k
    rw [Db.value_next h1 k, Db.value_next h1' k, he, hd k]

/-- C36.  Once every key is gone, any later history whose compare-and-swap functions do not look at
block numbers gives the same contents as on a fresh database. -/
theorem emptied_is_fresh {s : St} (hs : Reachable s) (he : ∀ k, (exec (.get k) s).1 = .got none) (cs : List Cmd)
    (hb : ∀ c ∈ cs, c.Blind) (k : Bytes) :
    (exec (.get k) (runSt cs s)).1.value = (exec (.get k) (runSt cs St.init)).1.value := by
  obtain ⟨d, h⟩ := hs.holds
  have hd : ∀ k, (d.map k).map (·.2) = (Db.empty.map k).map (·.2) := by
    intro k
    have := he k
    rw [h.get] at this
    have hk : d.map k = none := by simpa using this
    rw [hk]; rfl
  rw [emptied_forgets hs he, value_of_last_write,
    Db.blind_steps cs hb hd (run_refines cs h).1 (run_refines cs Holds.init).1]

/-- Every key of the demonstration is deleted, nineteen blocks having been written. -/
example : (∀ i < 12, (exec (.get (demoKey i)) (runSt demoEmptied St.init)).1 = .got none) ∧
    (runSt demoEmptied St.init).core.length = 19 := by decide +kernel

/-- The restriction is needed: a function that looks at block numbers tells the two apart. -/
theorem emptied_seq_visible : ∃ cs cs' k, (exec (.get k) (runSt cs' (runSt cs St.init))).1.value ≠
    (exec (.get k) (runSt cs' St.init)).1.value ∧ ∀ i < 12, (exec (.get (demoKey i)) (runSt cs St.init)).1 = .got none :=
  ⟨demoEmptied, [.putCas [1] none (fun _ n => n.seq = 1)], [1], by decide +kernel⟩

/-! ## C39 -/

/-- C39.  A call that (judging by its reply) wrote nothing appends nothing and has no influence on
any later reply, unless it is the first one to write the header. -/
theorem reads_quiet {s : St} (hs : Reachable s) (c : Cmd) (he : effect c (exec c s).1 = none)
    (hc : c.starts = true → s.core ≠ []) :
    (exec c s).2.core = s.core ∧ ∀ cs, runReplies cs (exec c s).2 = runReplies cs s := by
  obtain ⟨d, h⟩ := hs.holds
  obtain ⟨hdr, blk, h1, h2, h3, _⟩ := exec_appends c s
  apply h.quiet
  rw [he] at h2
  have hb : blk = [] := List.length_eq_zero_iff.mp h2
  have hh : hdr = [] := by
    rcases h3 with h3 | ⟨h3, _, h4⟩
    · exact h3
    · exact absurd h3 (hc (by rcases h4 with ⟨k, v, rfl⟩ | ⟨k, v, f, rfl⟩ | ⟨m, rfl⟩ <;> rfl))
  rw [(exec_refines h c).2.ver, h1, hb, hh, h.ver]
  simp

example : effect (.putCas (demoKey 4) none (fun o _ => o.isNone))
    (exec (.putCas (demoKey 4) none (fun o _ => o.isNone)) (runSt demo St.init)).1 = none := by decide +kernel
example : effect (.traverse {} [true, true, true]) (exec (.traverse {} [true, true, true]) (runSt demo St.init)).1 = none := by
  decide +kernel

/-! ## C40 -/

/-- C40.  Absent, empty and other values are read back as written, also by a new handle. -/
theorem values_kept {s : St} (hs : Reachable s) (k : Bytes) (v : Option Bytes) :
    (exec (.get k) (exec (.put k v) s).2).1 = .got (some (max 1 s.core.length, v)) ∧
    (exec (.get k) (exec .reopen (exec (.put k v) s).2).2).1 = .got (some (max 1 s.core.length, v)) := by
  obtain ⟨d, h⟩ := hs.holds
  have h2 := (exec_refines h (.put k v)).2
  have h3 := (exec_refines h2 .reopen).2
  constructor
  · rw [h2.get, ← h.max_len]; simp [Db.next, Db.write]
  · rw [h3.get, ← h.max_len]; simp [Db.next, Db.write]

example : (exec (.get []) (runSt demo St.init)).1 = .got (some (32, some [])) := by decide +kernel
example : (exec (.get []) (runSt [.put [] none, .reopen] St.init)).1 = .got (some (1, none)) := by decide +kernel

/-! ## C47 -/

/-- Block `q` of a core decodes to an entry with this key and value. -/
def BlockHolds (core : List Bytes) (q : Nat) (k : Bytes) (v : Option Bytes) : Prop :=
  ∃ b m, core[q]? = some b ∧ decodeNode b = some m ∧ m.key = k ∧ m.value = v

theorem BlockHolds.mono {c c' : List Bytes} {q : Nat} {k : Bytes} {v : Option Bytes} (h : BlockHolds c q k v)
    (hp : c <+: c') : BlockHolds c' q k v := by
  obtain ⟨b, m, h1, h2⟩ := h
  obtain ⟨t, rfl⟩ := hp
  refine ⟨b, m, ?_, h2⟩
  rw [List.getElem?_append_left (List.getElem?_eq_some_iff.mp h1).1, h1]

theorem Holds.block {s : St} {d : Db} (h : Holds s d) {k : Bytes} {q : Nat} {v : Option Bytes}
    (hk : d.map k = some (q, v)) : BlockHolds s.core q k v := by
  rcases h.store with hb | ⟨H, t, ht, _, hcon⟩
  · rw [hb.2 k] at hk; cases hk
  · obtain ⟨h1, h2, h3⟩ := (hcon k q v).mp hk
    obtain ⟨b, hb⟩ := ht.dfd q h1
    have hkey : b.key = k := by simpa [keyOf, hb] using h2
    have hval : b.value = v := by simpa [valOf, hb] using h3
    unfold blockAt at hb
    cases hc : s.core[q]? with
    | none => simp [hc] at hb
    | some x =>
      rw [hc] at hb
      simp only [Option.bind_some] at hb
      unfold blockOf at hb
      cases hd : decodeNode x with
      | none => simp [hd] at hb
      | some m =>
        rw [hd] at hb
        simp only [] at hb
        split at hb
        · cases hb
        · split at hb
          · cases hb
          · cases hb
            exact ⟨x, m, hc, hd, hkey, hval⟩

/-- C47.  The block number reported by `get` names a block that holds exactly that entry, and keeps
doing so whatever happens later. -/
theorem seq_names_block {s : St} (hs : Reachable s) {k : Bytes} {q : Nat} {v : Option Bytes}
    (hk : (exec (.get k) s).1 = .got (some (q, v))) (cs : List Cmd) : BlockHolds (runSt cs s).core q k v := by
  obtain ⟨d, h⟩ := hs.holds
  rw [h.get] at hk
  exact (h.block (by simpa using hk)).mono (run_appends cs s)

/-- C47, for `put`. -/
theorem put_names_block {s : St} (hs : Reachable s) (k : Bytes) (v : Option Bytes) (cs : List Cmd) :
    ∃ old q, (exec (.put k v) s).1 = .put old q ∧ BlockHolds (runSt cs (exec (.put k v) s).2).core q k v := by
  obtain ⟨d, h⟩ := hs.holds
  obtain ⟨h1, h2⟩ := exec_refines h (.put k v)
  refine ⟨_, _, h1, ?_⟩
  exact (h2.block (by simp [Db.next, Db.write])).mono (run_appends cs _)

/-- C47, for traversals. -/
theorem traverse_names_block {s : St} (hs : Reachable s) {b : TraverseConfigBuilder} {sched : List Bool}
    {xs : List (Except Err KeyValueData)} {fin : Bool} (ht : (exec (.traverse b sched) s).1 = .items xs fin)
    {e : KeyValueData} (he : .ok e ∈ xs) (cs : List Cmd) : BlockHolds (runSt cs s).core e.seq e.key e.value := by
  obtain ⟨d, h⟩ := hs.holds
  have h1 := (exec_refines h (.traverse b sched)).1
  rw [ht] at h1
  simp only [Db.Returns] at h1
  cases hb : b.build with
  | error e => rw [hb] at h1; cases h1
  | ok conf =>
    rw [hb] at h1
    simp only [] at h1
    split at h1
    · cases h1
    · obtain ⟨full, ys, fin', hl, hr, hp⟩ := h1
      cases hr
      simp only [List.mem_map, Except.ok.injEq, exists_eq_right] at he
      have hm : e ∈ full := by
        split at hp
        · rw [← hp]; exact he
        · exact hp.subset he
      have h3 := ((hl.2 e).mp hm).1
      unfold Db.entry at h3
      cases hd : d.map e.key with
      | none => rw [hd] at h3; cases h3
      | some x =>
        rw [hd] at h3
        obtain ⟨q, v⟩ := x
        have : e = ⟨q, e.key, v⟩ := by simpa using h3.symm
        rw [this] at hd ⊢
        exact (h.block hd).mono (run_appends cs s)

example : ∃ e, (exec (.traverse {} (List.replicate 12 true)) (runSt demo St.init)).1 = .items [.ok e] false ∧ e.key = [] := by
  refine ⟨⟨32, [], some []⟩, ?_⟩
  decide +kernel

end Hyperbee
