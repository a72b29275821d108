import Verif.Model.SubSession
import Verif.Proof.Safe
/-!
# Sub-databases: prefixes, ranges and states
-/

namespace Hyperbee

/-! ## Byte strings with a common prefix -/

theorem append_lt_iff (p a b : Bytes) : p ++ a < p ++ b ↔ a < b := by
  induction p with
  | nil => rfl
  | cons x p ih => rw [List.cons_append, List.cons_append, List.cons_lt_cons_iff, ih]; simp

theorem blt_of_prefix {a b : Bytes} (h : a <+: b) (hne : a ≠ b) : a < b := by
  obtain ⟨t, rfl⟩ := h
  have : t ≠ [] := by rintro rfl; simp at hne
  have h := (append_lt_iff a [] t).mpr (by
    cases t with
    | nil => exact absurd rfl this
    | cons y t => simp)
  rwa [List.append_nil] at h

/-- Anything between two strings with a prefix has the prefix. -/
theorem between_prefix (p : Bytes) : ∀ {a b x : Bytes}, (p ++ a < x ∨ x = p ++ a) → (x < p ++ b ∨ x = p ++ b) → p <+: x := by
  induction p with
  | nil => intro a b x _ _; exact List.nil_prefix
  | cons c p ih =>
    intro a b x h1 h2
    rcases h1 with h1 | rfl
    · rcases h2 with h2 | rfl
      · cases x with
        | nil => simp at h1
        | cons d x =>
          rw [List.cons_append, List.cons_lt_cons_iff] at h1 h2
          have hcd : c = d := by
            rcases h1 with h1 | ⟨h1, _⟩
            · rcases h2 with h2 | ⟨h2, _⟩
              · rw [UInt8.lt_iff_toNat_lt] at h1 h2; omega
              · exact h2.symm
            · exact h1
          subst hcd
          simp at h1 h2
          exact (List.cons_prefix_cons).mpr ⟨rfl, ih (.inl h1) (.inl h2)⟩
      · exact List.prefix_append _ _
    · exact List.prefix_append _ _

/-- `increment_bytes` of a string whose last byte is not 255 is the end of the strings it starts. -/
theorem increment_range {p : Bytes} {b : UInt8} (hb : b ≠ 255) (x : Bytes) :
    (p ++ [b] < x ∨ x = p ++ [b]) ∧ x < incrementBytes (p ++ [b]) ↔ p ++ [b] <+: x := by
  have hinc : incrementBytes (p ++ [b]) = p ++ [b + 1] := by
    simp [incrementBytes, hb]
  have hb1 : (b + 1).toNat = b.toNat + 1 := by
    have hlt : b.toNat < 256 := b.toNat_lt
    have : b.toNat ≠ 255 := fun h => hb (UInt8.toNat_inj.mp h)
    rw [UInt8.toNat_add]
    have h1 : (1 : UInt8).toNat = 1 := rfl
    rw [h1]
    omega
  rw [hinc]
  constructor
  · rintro ⟨h1, h2⟩
    have hp := between_prefix p h1 (.inl h2)
    obtain ⟨t, rfl⟩ := hp
    rw [append_lt_iff] at h1 h2
    cases t with
    | nil =>
      rcases h1 with h1 | h1
      · simp at h1
      · exact absurd (congrArg List.length h1) (by simp)
    | cons y t =>
      have h1' : b < y ∨ b = y := by
        rcases h1 with h1 | h1
        · rw [List.cons_lt_cons_iff] at h1
          exact h1.imp id And.left
        · have := List.append_cancel_left h1
          injection this with e _
          exact .inr e.symm
      rw [List.cons_lt_cons_iff] at h2
      have h2' : y < b + 1 := by
        rcases h2 with h2 | ⟨_, h2⟩
        · exact h2
        · simp at h2
      have : b = y := by
        rcases h1' with h | h
        · rw [UInt8.lt_iff_toNat_lt] at h h2'
          omega
        · exact h
      subst this
      exact ⟨t, by simp⟩
  · rintro ⟨t, rfl⟩
    constructor
    · cases t with
      | nil => right; simp
      | cons y t => left; exact blt_of_prefix ⟨y :: t, rfl⟩ (by simp)
    · rw [List.append_assoc, append_lt_iff, List.singleton_append, List.cons_lt_cons_iff]
      left
      rw [UInt8.lt_iff_toNat_lt]
      omega

/-! ## Bounds checks that agree with the interval -/

theorem sound_of {conf : TraverseConfig} (h : ∀ lo, conf.minValue = .finite lo → conf.minInclusive = true →
    BelowMax conf.maxValue conf.maxInclusive lo) : conf.Sound := by
  obtain ⟨mn, mi, mx, xi, rv⟩ := conf
  intro k
  simp only [TraverseConfig.inBounds, InRange, aboveMin_iff]
  cases hmn : mn.cmp k with
  | gt => simp
  | lt =>
    simp only [true_or, true_and, belowMax_iff]
    cases mx.cmp k <;> simp
  | eq =>
    simp only [reduceCtorEq, false_or, and_true]
    constructor
    · intro hi
      refine ⟨hi, ?_⟩
      cases mn with
      | finite v =>
        simp only [LimitValue.cmp, bcmp_eq_iff] at hmn
        subst hmn
        exact h v rfl hi
      | infinite i => cases i <;> simp [LimitValue.cmp, InfiniteKeys.cmp] at hmn
    · exact fun h => h.1

/-- Accepted finite bounds: the minimum lies below the maximum, or they are equal and inclusive. -/
theorem build_ordered {b : TraverseConfigBuilder} {conf : TraverseConfig} (hb : b.build = .ok conf) {lo hi : Bytes}
    (h1 : conf.minValue = .finite lo) (h2 : conf.maxValue = .finite hi) :
    lo < hi ∨ (lo = hi ∧ conf.minInclusive = true ∧ conf.maxInclusive = true) := by
  obtain ⟨mn, mi, mx, xi, rv⟩ := b
  unfold TraverseConfigBuilder.build at hb
  split at hb
  · rename_i hv
    cases hb
    simp only at h1 h2
    cases mn with
    | none => cases h1
    | some mn =>
      cases mx with
      | none => cases h2
      | some mx =>
        simp only [Option.getD_some] at h1 h2
        subst h1 h2
        simp only [validateBuilder] at hv
        split at hv
        · cases hv
        · rename_i hlt
          split at hv
          · rename_i heq
            right
            refine ⟨heq, ?_, ?_⟩
            · rcases mi with _ | mi
              · rfl
              · cases mi <;> simp_all
            · rcases xi with _ | xi
              · rfl
              · rcases mi with _ | mi
                · cases xi <;> simp_all
                · cases mi <;> cases xi <;> simp_all
          · rename_i hne
            left
            rw [bcmp_lt_iff] at hlt
            rcases blt_trichotomy lo hi with h | h | h
            · exact h
            · exact absurd h hne
            · exact absurd h hlt
  · cases hb

/-! ## States after calls of both kinds -/

/-- The call on the database itself that a call through a sub-database amounts to (a traversal reads
only). -/
def Prefixed.expand (p : Prefixed) : Cmd → Cmd
  | .get k => .get (p.pre ++ p.sep ++ k)
  | .put k v => .put (p.pre ++ p.sep ++ k) v
  | .putCas k v cas => .putCas (p.pre ++ p.sep ++ k) v cas
  | .del k => .del (p.pre ++ p.sep ++ k)
  | .delCas k cas => .delCas (p.pre ++ p.sep ++ k) cas
  | .traverse _ _ => .version
  | c => c

def expandVia (x : Option Prefixed × Cmd) : Cmd :=
  match x.1 with
  | none => x.2
  | some p => p.expand x.2

theorem Prefixed.exec_expand (p : Prefixed) (c : Cmd) (h : ∀ b sched, c ≠ .traverse b sched) (s : St) :
    p.exec c s = Hyperbee.exec (p.expand c) s := by
  cases c with
  | traverse b sched => exact absurd rfl (h b sched)
  | _ => rfl

/-- What the closure over the stream of a sub-database does. -/
def Prefixed.stripE (p : Prefixed) : Except Err KeyValueData → Except Err (Except Err KeyValueData)
  | .error e => .ok (.error e)
  | .ok x =>
    if p.pre.length + p.sep.length ≤ x.key.length then
      .ok (.ok { x with key := x.key.drop (p.pre.length + p.sep.length) })
    else .error (.panic "prefixed.rs:171 key.drain(..len_drain)")

theorem Prefixed.strip_eq (p : Prefixed) (x : Except Err KeyValueData) (s : St) : p.strip x s = (p.stripE x, s) := by
  cases x with
  | error e => rfl
  | ok x =>
    unfold Prefixed.strip Prefixed.stripE
    simp only []
    split <;> rfl

theorem Prefixed.collect_bare {s : St} {d : Db} (hb : Bare s.core d) (p : Prefixed) (sched : List Bool) (conf : TraverseConfig) :
    p.collect sched conf s = (.error .noRoot, s) := by
  have hroot : getRoot false s = (.ok none, s) := by
    rcases Nat.lt_or_ge s.core.length 1 with hl | hl
    · exact getRoot_zero_false (by omega)
    · exact getRoot_one (by have := hb.1; omega) false
  have h1 : Hyperbee.traverse (p.boundedConf conf) s = (.error .noRoot, s) := by
    unfold Hyperbee.traverse
    rw [bind_ok hroot]
    rfl
  unfold Prefixed.collect
  rw [bind_error h1]

theorem Prefixed.collect_ext {s : St} {d : Db} (h : Holds s d) (p : Prefixed) (sched : List Bool) (conf : TraverseConfig) :
    Ext s (p.collect sched conf s).2 := by
  rcases h.store with hb | ⟨H, t, ht, hc, hcon⟩
  · rw [p.collect_bare hb]; exact Ext.refl h.wf
  · obtain ⟨fs, s1, h1, e1, hsafe⟩ := traverse_safe ht h.wf hc (p.boundedConf conf)
    obtain ⟨res, s2, h2, e2, _⟩ := drive_safe (p.strip_eq) sched (c := s.core) e1.core e1.wf hsafe
    unfold Prefixed.collect
    rw [bind_ok h1, h2]
    exact e1.trans e2

theorem Prefixed.traverse_ext {s : St} {d : Db} (h : Holds s d) (p : Prefixed) (b : TraverseConfigBuilder) (sched : List Bool) :
    Ext s (p.exec (.traverse b sched) s).2 := by
  show Ext s (replyOf (p.traverseSession b sched) _ s).2
  rw [replyOf_snd]
  unfold Prefixed.traverseSession
  cases hb : b.build with
  | error e => exact Ext.refl h.wf
  | ok conf =>
    simp only []
    have hx := p.collect_ext h sched conf
    cases hc : p.collect sched conf s with
    | mk r s' =>
      rw [hc] at hx
      cases r with
      | ok a => rw [bind_ok hc]; exact hx
      | error e => rw [bind_error hc]; exact hx

theorem execVia_holds {s : St} {d : Db} (h : Holds s d) (x : Option Prefixed × Cmd) :
    Holds (execVia x s).2 (d.next (expandVia x)) := by
  obtain ⟨via, c⟩ := x
  cases via with
  | none => exact (exec_refines h c).2
  | some p =>
    show Holds (p.exec c s).2 (d.next (p.expand c))
    by_cases hc : ∃ b sched, c = .traverse b sched
    · obtain ⟨b, sched, rfl⟩ := hc
      exact (p.traverse_ext h b sched).holds h
    · rw [p.exec_expand c (fun b sched e => hc ⟨b, sched, e⟩)]
      exact (exec_refines h _).2

theorem runVia_holds : ∀ (xs : List (Option Prefixed × Cmd)) {s : St} {d : Db}, Holds s d →
    Holds (runVia xs s).2 (d.after (xs.map expandVia)) := by
  intro xs
  induction xs with
  | nil => intro s d h; exact h
  | cons x xs ih => intro s d h; exact ih (execVia_holds h x)

/-- Calls through sub-databases leave the core they would leave made on the database itself. -/
theorem runVia_core : ∀ (xs : List (Option Prefixed × Cmd)) {s s' : St} {d : Db}, Holds s d → Holds s' d →
    s'.core = s.core → (runVia xs s).2.core = (runSt (xs.map expandVia) s').core := by
  intro xs
  induction xs with
  | nil => intro s s' d _ _ hc; exact hc.symm
  | cons x xs ih =>
    intro s s' d h h' hc
    refine ih (execVia_holds h x) (exec_refines h' (expandVia x)).2 ?_
    obtain ⟨via, c⟩ := x
    cases via with
    | none => exact (call_same h h' hc c).2.symm
    | some p =>
      show (Hyperbee.exec (p.expand c) s').2.core = (p.exec c s).2.core
      by_cases hcm : ∃ b sched, c = .traverse b sched
      · obtain ⟨b, sched, rfl⟩ := hcm
        rw [(p.traverse_ext h b sched).core]
        exact hc
      · rw [p.exec_expand c (fun b sched e => hcm ⟨b, sched, e⟩)]
        exact (call_same h h' hc _).2.symm

/-! ## Driving a stream whose items may make the caller fail -/

/-- As `drive_run`, where what is done with an item may fail: then everything before that item has
been dealt with, and the whole fails. -/
theorem drive_run_err {β : Type} {post : Except Err KeyValueData → M β} {g : Nat → Except Err β} {c : List Bytes}
    {conf : TraverseConfig} (hS : conf.Sound) {n : T} : ∀ (sched : List Bool) (s : St) (fs : List Frame)
    (out : List Nat) (fuel : Nat), s.core = c → Strm s conf fs n out fuel → SWF s →
    (∀ q ∈ out, ∀ s', post (.ok (kvOf c q)) s' = (g q, s')) →
    ∃ xs rest ys s', Ext s s' ∧ out = xs ++ rest ∧ xs.map g = ys.map .ok ∧
      ((∃ fin, drive post sched fs s = (.ok (ys, fin), s') ∧
        (match fin with
          | none => rest = []
          | some fs' => ∃ fuel', Strm s' conf fs' n rest fuel' ∧ fuel' + sched.count true ≤ fuel)) ∨
      ∃ q rest' e, rest = q :: rest' ∧ g q = .error e ∧ drive post sched fs s = (.error e, s')) := by
  intro sched
  induction sched with
  | nil =>
    intro s fs out fuel _ h hw _
    exact ⟨[], out, [], s, Ext.refl hw, rfl, rfl, .inl ⟨some fs, rfl, fuel, h, by simp⟩⟩
  | cons r rs ih =>
    intro s fs out fuel hcore h hw hpost
    obtain ⟨p, fs', s1, h1, e1, hp⟩ := poll_run hS h hw r
    unfold drive
    rw [bind_ok h1]
    have hcore1 : s1.core = c := by rw [e1.core, hcore]
    cases p with
    | pending woken waiting =>
      obtain ⟨_, hp⟩ := hp
      have key : ∃ fuel', Strm s1 conf fs' n out fuel' ∧ (if r then 1 else 0) + fuel' ≤ fuel := by
        cases waiting with
        | true =>
          rw [if_pos rfl] at hp
          obtain ⟨rfl, rfl, rfl⟩ := hp
          exact ⟨fuel, h, by simp⟩
        | false =>
          rw [if_neg (by simp)] at hp
          obtain ⟨f', hlt, hst⟩ := hp
          exact ⟨f', hst, by split <;> omega⟩
      obtain ⟨f', hst, hle⟩ := key
      obtain ⟨xs, rest, ys, s2, e2, ho, hy, hres⟩ := ih s1 fs' out f' hcore1 hst e1.wf hpost
      refine ⟨xs, rest, ys, s2, e1.trans e2, ho, hy, ?_⟩
      rcases hres with ⟨fin, h2, hfin⟩ | hres
      · refine .inl ⟨fin, h2, ?_⟩
        cases fin with
        | none => exact hfin
        | some fs2 =>
          obtain ⟨f2, h3, h4⟩ := hfin
          refine ⟨f2, h3, ?_⟩
          cases r <;> simp at hle ⊢ <;> omega
      · exact .inr hres
    | ready item woken =>
      cases item with
      | none => exact ⟨[], out, [], s1, e1, rfl, rfl, .inl ⟨none, rfl, hp.2⟩⟩
      | some it =>
        obtain ⟨x, a⟩ := it
        obtain ⟨q, out', f', rfl, rfl, hlt, hst, _⟩ := hp
        have hpq := hpost q (by simp) s1
        rw [hcore]
        simp only [kvOf] at hpq
        simp only []
        cases hg : g q with
        | error e =>
          rw [hg] at hpq
          rw [bind_error hpq]
          exact ⟨[], q :: out', [], s1, e1, rfl, rfl, .inr ⟨q, out', e, rfl, hg, rfl⟩⟩
        | ok y =>
          rw [hg] at hpq
          rw [bind_ok hpq]
          obtain ⟨xs, rest, ys, s2, e2, ho, hy, hres⟩ := ih s1 fs' out' f' hcore1 hst e1.wf
            (fun q hq => hpost q (List.mem_cons_of_mem _ hq))
          refine ⟨q :: xs, rest, y :: ys, s2, e1.trans e2, by rw [ho]; rfl, by simp [hg, hy], ?_⟩
          rcases hres with ⟨fin, h2, hfin⟩ | ⟨q', rest', e, h3, h4, h2⟩
          · rw [bind_ok h2]
            refine .inl ⟨fin, rfl, ?_⟩
            cases fin with
            | none => exact hfin
            | some fs2 =>
              obtain ⟨f2, h3, h4⟩ := hfin
              refine ⟨f2, h3, ?_⟩
              cases r <;> simp <;> omega
          · rw [bind_error h2]
            exact .inr ⟨q', rest', e, h3, h4, rfl⟩

end Hyperbee
