import Verif.Proof.Readers
import Verif.Proof.Reach
/-!
# Schedules

What holds of a handle after readers, or writers that have not written yet, have taken steps on it
in any order.
-/

namespace Hyperbee

variable {s0 : St} {esc : Bool}

/-- The next step changes a node or the core. -/
def Prog.atWrite : Prog α → Bool
  | .step x _ => x.writes
  | _ => false

/-- No step of the schedule changes a node or the core. -/
def Calm : List Nat → List (Prog α) → St → Prop
  | [], _, _ => True
  | i :: is, ps, s =>
    match ps[i]? with
    | none => Calm is ps s
    | some p => p.atWrite = false ∧ Calm is (ps.set i (p.next s).1) (p.next s).2

instance decidableCalm : ∀ (sched : List Nat) (ps : List (Prog α)) (s : St), Decidable (Calm sched ps s)
  | [], _, _ => .isTrue trivial
  | i :: is, ps, s =>
    match h : ps[i]? with
    | none =>
      have := decidableCalm is ps s
      decidable_of_iff (Calm is ps s) (by rw [Calm, h])
    | some p =>
      have := decidableCalm is (ps.set i (p.next s).1) (p.next s).2
      decidable_of_iff (p.atWrite = false ∧ Calm is (ps.set i (p.next s).1) (p.next s).2) (by rw [Calm, h])

theorem Ok.next {p : Prog α} {Γ : Names} {Q : Names → Except Err α → Prop} (h : Ok s0 esc p Γ Q) {s : St}
    (hi : Inv s0 Γ s) (hw : esc = true → p.atWrite = false) :
    ∃ Γ', Γ.le Γ' ∧ Inv s0 Γ' (p.next s).2 ∧ Ok s0 esc (p.next s).1 Γ' Q := by
  cases p with
  | pure a => exact ⟨Γ, .refl Γ, hi, h⟩
  | throw e => exact ⟨Γ, .refl Γ, hi, h⟩
  | step x k =>
    rcases h with ⟨h1, h2⟩ | h
    · have := hw h1
      rw [show (Prog.step x k).atWrite = x.writes from rfl, h2] at this
      cases this
    · exact h Γ s (.refl Γ) hi

theorem interleave_ok {Q : Nat → Names → Except Err α → Prop} : ∀ (sched : List Nat) (ps : List (Prog α)) (s : St)
    (Γ : Names), (∀ i p, ps[i]? = some p → Ok s0 esc p Γ (Q i)) → Inv s0 Γ s → (esc = true → Calm sched ps s) →
    ∃ Γ', Γ.le Γ' ∧ Inv s0 Γ' (Prog.interleave sched ps s).2 ∧
      ∀ i p, (Prog.interleave sched ps s).1[i]? = some p → Ok s0 esc p Γ' (Q i) := by
  intro sched
  induction sched with
  | nil => intro ps s Γ h hi _; exact ⟨Γ, .refl Γ, hi, h⟩
  | cons j js ih =>
    intro ps s Γ h hi hc
    unfold Prog.interleave
    unfold Calm at hc
    cases hj : ps[j]? with
    | none => rw [hj] at hc; exact ih ps s Γ h hi hc
    | some p =>
      rw [hj] at hc
      obtain ⟨Γ1, h1, h2, h3⟩ := (h j p hj).next hi fun he => (hc he).1
      obtain ⟨Γ2, g1, g2, g3⟩ := ih (ps.set j (p.next s).1) (p.next s).2 Γ1 (by
        intro i q hq
        rw [List.getElem?_set] at hq
        split at hq
        · rename_i hji
          subst hji
          split at hq
          · cases hq; exact h3
          · cases hq
        · exact (h i q hq).mono h1) h2 fun he => (hc he).2
      exact ⟨Γ2, h1.trans g1, g2, g3⟩

/-! ## The invariant of handles -/

theorem SWF.rooms {s : St} (h : SWF s) : Rooms s := by
  intro q e he a ha
  obtain ⟨j, hj⟩ := List.getElem?_of_mem ha
  exact h.lt ⟨q, j⟩ a (by simp [addrOf, he, hj])

theorem idealEntry_ok {q : Nat} {e : BlockEntry} (h : idealEntry s0 q = .ok e) :
    s0.cache q = some e ∨ s0.cache q = none ∧ ∃ b, blockAt s0.core q = some b ∧ e.key = b.key ∧ e.value = b.value ∧
      e.nodes = (List.range b.nodes.length).map fun j => s0.heap.length + Nat.pair q j := by
  unfold idealEntry at h
  split at h
  · rename_i e' he
    cases h
    exact .inl he
  · rename_i he
    refine .inr ⟨he, ?_⟩
    split at h
    · split at h
      · cases h
      · rename_i x hx
        split at h
        · rename_i b hb
          cases h
          exact ⟨b, by simp [blockAt, hx, hb], rfl, rfl, rfl⟩
        · cases h
    · cases h

/-- The node a reference has in the ideal memory. -/
theorem Inv.addr {Γ : Names} {s : St} (h : Inv s0 Γ s) {r : Child} {a : Nat} (ha : addrOf s r = some a) :
    (s0.cache r.seq ≠ none ∧ addrOf s0 r = some a) ∨
    (s0.cache r.seq = none ∧ Γ a = some (s0.heap.length + Nat.pair r.seq r.offset)) := by
  unfold addrOf at ha
  cases hc : s.cache r.seq with
  | none => simp [hc] at ha
  | some e =>
    simp only [hc, Option.bind_some] at ha
    obtain ⟨e', h1, h2⟩ := h.ent _ _ hc
    rcases idealEntry_ok h1 with h3 | ⟨h3, b, hb, _, _, hn⟩
    · left
      have := h.cache _ _ h3
      rw [hc] at this
      cases this
      exact ⟨by simp [h3], by simp [addrOf, h3, ha]⟩
    · right
      refine ⟨h3, ?_⟩
      have := forall2_rel h2.nodes r.offset
      rw [ha, hn] at this
      cases hr : ((List.range b.nodes.length).map fun j => s0.heap.length + Nat.pair r.seq j)[r.offset]? with
      | none => rw [hr] at this; cases this
      | some i =>
        rw [hr] at this
        cases this with
        | some hh =>
        simp only [List.getElem?_map, Option.map_eq_some_iff] at hr
        obtain ⟨j, hj, rfl⟩ := hr
        rw [hh]
        have : j = r.offset := by
          rw [List.getElem?_range] at hj
          · simpa using hj.symm
          · by_contra hlt
            rw [List.getElem?_eq_none (by simpa using hlt)] at hj
            cases hj
        rw [this]

theorem Inv.wf {Γ : Names} {s : St} (h0 : SWF s0) (h : Inv s0 Γ s) : SWF s := by
  refine ⟨fun q => by rw [h.io]; exact h0.rd q, ?_, ?_, ?_⟩
  · intro q e he
    obtain ⟨e', h1, h2⟩ := h.ent q e he
    rw [h.core]
    have hlen := h2.nodes.length_eq
    rcases idealEntry_ok h1 with h3 | ⟨h3, b, hb, hk, hv, hn⟩
    · obtain ⟨b, hb, hk, hv, hn⟩ := h0.ent q e' h3
      exact ⟨b, hb, h2.key.trans hk, h2.value.trans hv, hlen.trans hn⟩
    · exact ⟨b, hb, h2.key.trans hk, h2.value.trans hv, by rw [hlen, hn]; simp⟩
  · intro r a ha
    rcases h.addr ha with ⟨_, h1⟩ | ⟨_, h1⟩
    · exact Nat.lt_of_lt_of_le (h0.lt r a h1) h.le_heap
    · exact h.lt h1
  · intro r r' a ha ha'
    rcases h.addr ha with ⟨_, h1⟩ | ⟨_, h1⟩ <;> rcases h.addr ha' with ⟨_, h1'⟩ | ⟨_, h1'⟩
    · exact h0.inj r r' a h1 h1'
    · have := h.old a (h0.lt r a h1)
      rw [h1'] at this
      have hlt := h0.lt r a h1
      simp only [Option.some.injEq] at this
      omega
    · have := h.old a (h0.lt r' a h1')
      rw [h1] at this
      have hlt := h0.lt r' a h1'
      simp only [Option.some.injEq] at this
      omega
    · rw [h1] at h1'
      simp only [Option.some.injEq, Nat.add_left_cancel_iff] at h1'
      have := Nat.pair_eq_pair.mp h1'
      cases r; cases r'
      simp_all

theorem Inv.coh {Γ : Names} {s : St} (hw : SWF s0) (h : Inv s0 Γ s) {R : Child → Prop} (h0 : Coh s0 R) : Coh s R := by
  intro r hr a ha
  rw [h.core]
  rcases h.addr ha with ⟨_, h1⟩ | ⟨_, h1⟩
  · rw [← h0 r hr a h1]
    obtain ⟨xs, hx⟩ := h.heap
    rw [hx, List.getElem?_append_left (hw.lt r a h1)]
  · obtain ⟨n, h2, h3⟩ := h.dom _ _ h1
    rw [h2, ← h3]
    unfold idealNode
    rw [if_neg (by omega), Nat.add_sub_cancel_left, Nat.unpair_pair]

/-- Loading blocks keeps what the handle holds. -/
theorem Inv.holds {Γ : Names} {s : St} {d : Db} (h0 : Holds s0 d) (h : Inv s0 Γ s) : Holds s d := by
  refine ⟨h.wf h0.wf, by rw [h.io]; exact h0.ok, by rw [h.core]; exact h0.ver, ?_⟩
  rcases h0.store with hb | ⟨H, t, h1, h2, h3⟩
  · exact .inl (by rw [h.core]; exact hb)
  · exact .inr ⟨H, t, by rw [h.core]; exact h1, h.coh h0.wf h2, by rw [h.core]; exact h3⟩

/-! ## Writers before their first write -/

theorem ok_true_bind {p : Prog α} {f : α → Prog β} {Γ : Names} (h : Ok s0 true p Γ fun _ _ => True)
    (hf : ∀ Γ' a, Γ.le Γ' → Ok s0 true (f a) Γ' fun _ _ => True) : Ok s0 true (p >>= f) Γ fun _ _ => True :=
  Ok.bind h (fun Γ' a hl _ => hf Γ' a hl) fun _ _ _ _ => trivial

theorem Sim.ok {p p' : Prog α} {Γ : Names} {R : Names → α → α → Prop} (h : Sim s0 true p p' Γ R) :
    Ok s0 true p Γ fun _ _ => True := Ok.imp h fun _ _ _ _ => trivial

theorem ok_pure {Γ : Names} (a : α) : Ok s0 true (Pure.pure a) Γ fun _ _ => True := fun _ _ => trivial
theorem ok_throw {Γ : Names} (e : Err) : Ok s0 true (Prog.throw e : Prog α) Γ fun _ _ => True := fun _ _ => trivial
theorem ok_orPanic {Γ : Names} (site : String) (o : Option α) : Ok s0 true (Prog.orPanic site o) Γ fun _ _ => True := by
  cases o
  · exact ok_throw _
  · exact ok_pure _

theorem ok_readNode {Γ : Names} (a : Nat) : Ok s0 true (Prog.readNode a) Γ fun _ _ => True := by
  refine .inr fun Γ' s hl hi => ⟨Γ', .refl Γ', ?_, ?_⟩
  · rw [show (Atom.readNode a).run s = readNode a s from rfl]
    unfold readNode
    cases s.heap[a]? <;> exact hi
  · cases ((Atom.readNode a).run s).1
    · exact ok_throw _
    · exact ok_pure _

theorem ok_lift_write {Γ : Names} {x : Atom α} (h : x.writes = true) {f : α → Prog β} :
    Ok s0 true (Prog.lift x >>= f) Γ fun _ _ => True := .inl ⟨rfl, h⟩

theorem ok_createHeader {Γ : Names} (m : Option Metadata) : Ok s0 true (Prog.createHeader m) Γ fun _ _ => True := by
  unfold Prog.createHeader
  refine ok_true_bind sim_version.ok fun Γ1 v h1 => ?_
  split
  · exact ok_throw _
  · exact .inl ⟨rfl, rfl⟩

theorem ok_catchExists {p : Prog Nat} {Γ : Names} (h : Ok s0 true p Γ fun _ _ => True) :
    Ok s0 true (Prog.catchExists p) Γ fun _ _ => True := by
  induction p generalizing Γ with
  | pure a => exact fun _ _ => trivial
  | throw e => cases e <;> exact fun _ _ => trivial
  | step x k ih =>
    rcases h with h | h
    · exact .inl h
    · refine .inr fun Γ' s hl hi => ?_
      obtain ⟨Γ'', h1, h2, h3⟩ := h Γ' s hl hi
      exact ⟨Γ'', h1, h2, ih _ h3⟩

theorem ok_replyOf {p : Prog α} {f : α → Reply} {Γ : Names} (h : Ok s0 true p Γ fun _ _ => True) :
    Ok s0 true (Prog.replyOf f p) Γ fun _ _ => True := by
  induction p generalizing Γ with
  | pure a => exact fun _ _ => trivial
  | throw e => exact fun _ _ => trivial
  | step x k ih =>
    rcases h with h | h
    · exact .inl h
    · refine .inr fun Γ' s hl hi => ?_
      obtain ⟨Γ'', h1, h2, h3⟩ := h Γ' s hl hi
      exact ⟨Γ'', h1, h2, ih _ h3⟩

/-- The root, if there is one, has a name. -/
def Rooted1 (Γ : Names) : Except Err (Option Nat) → Prop
  | .ok (some a) => ∃ i, Γ a = some i
  | _ => True

theorem ok_getRoot {Γ : Names} (b : Bool) : Ok s0 true (Prog.getRoot b) Γ Rooted1 := by
  unfold Prog.getRoot
  refine Ok.bind sim_version (fun Γ1 v h1 _ => ?_) (fun Γ1 e h1 _ => trivial)
  split
  · split
    · exact Ok.bind (ok_catchExists (ok_createHeader none)) (fun Γ2 b h2 _ Γ3 h3 => trivial) (fun Γ1 e h1 _ => trivial)
    · exact fun Γ3 h3 => trivial
  · refine Ok.bind (sim_blocksGet (v - 1)) (fun Γ2 e h2 he => ?_) (fun Γ1 e h1 _ => trivial)
    revert he
    cases ideal s0 (Prog.blocksGet (v - 1)) with
    | error e => exact fun he => he.elim
    | ok e' =>
      intro he
      refine Ok.bind (sim_getTreeNode he 0) (fun Γ3 a h3 ha => ?_) (fun Γ1 e h1 _ => trivial)
      revert ha
      cases ideal s0 (Prog.getTreeNode e' 0) with
      | error e => exact fun ha => ha.elim
      | ok i => exact fun ha Γ4 h4 => ⟨i, h4 _ _ ha⟩

theorem ok_getKeyValue {Γ : Names} (a j : Nat) : Ok s0 true (Prog.getKeyValue a j) Γ fun _ _ => True := by
  unfold Prog.getKeyValue
  refine ok_true_bind (ok_readNode a) fun Γ1 n h1 => Ok.under _ _ (ok_true_bind (ok_orPanic _ _) fun Γ2 q h2 => ?_)
  exact ok_true_bind (sim_blocksGet q).ok fun Γ3 b h3 => ok_true_bind (sim_blocksGet q).ok fun Γ4 b' h4 => ok_pure _

/-- The program does not return without having written. -/
def Fails : Names → Except Err α → Prop := fun _ r => ∃ e, r = .error e

theorem fails_bind {p : Prog α} {f : α → Prog β} {Γ : Names} (h : Ok s0 true p Γ fun _ _ => True)
    (hf : ∀ Γ' a, Γ.le Γ' → Ok s0 true (f a) Γ' Fails) : Ok s0 true (p >>= f) Γ Fails :=
  Ok.bind h (fun Γ' a hl _ => hf Γ' a hl) fun _ e _ _ => ⟨e, rfl⟩

theorem fails_first {p : Prog α} {f : α → Prog β} {Γ : Names} (h : Ok s0 true p Γ Fails) :
    Ok s0 true (p >>= f) Γ Fails :=
  Ok.bind h (fun Γ' a hl ha => by obtain ⟨e, he⟩ := ha; cases he) fun _ e _ _ => ⟨e, rfl⟩

theorem fails_true {p : Prog α} {Γ : Names} (h : Ok s0 true p Γ Fails) : Ok s0 true p Γ fun _ _ => True :=
  Ok.imp h fun _ _ _ _ => trivial

theorem fails_edit {Γ : Names} (md : Mode) (a : Nat) (f : Node → Except Err (β × Node)) :
    Ok s0 true (Prog.edit md a f) Γ Fails := .inl ⟨rfl, rfl⟩

theorem fails_nodeInsert {Γ : Names} (a k : Nat) (cs : List Child) (i j : Nat) :
    Ok s0 true (Prog.nodeInsert a k cs i j) Γ Fails := by
  exact fails_edit _ _ _

theorem fails_putLoop {Γ : Names} (m : Bool) (p : NodePath) (ch : Changes) (k : Nat) (cs : List Child) :
    Ok s0 true (Prog.putLoop m p ch k cs) Γ Fails := by
  cases p with
  | nil => exact .inl ⟨rfl, rfl⟩
  | cons x p =>
    unfold Prog.putLoop
    refine fails_bind (ok_readNode _) fun Γ1 n h1 => ?_
    dsimp only
    split
    · exact fails_first (fails_nodeInsert _ _ _ _ _)
    · exact fails_first (fails_nodeInsert _ _ _ _ _)

theorem ok_putPrepare {Γ : Names} (k : Bytes) (v : Option Bytes) (cas : Option KeyValueData → KeyValueData → Bool) :
    Ok s0 true (Prog.putPrepare k v cas) Γ fun _ r => ∀ p, r = .ok p → ∃ a, p = .done a := by
  have hbad : ∀ {Γ : Names} {p : Prog (Prepared (Option Nat × Option Nat))}, Ok s0 true p Γ Fails →
      Ok s0 true p Γ fun _ r => ∀ p, r = .ok p → ∃ a, p = .done a := by
    intro Γ p h
    exact Ok.imp h fun Γ' r _ ⟨e, he⟩ p hp => by rw [he] at hp; cases hp
  unfold Prog.putPrepare
  refine Ok.bind (ok_getRoot true) (fun Γ1 o h1 ho => ?_) (fun Γ1 e h1 _ p hp => by cases hp)
  refine Ok.bind sim_version (fun Γ2 q h2 _ => ?_) (fun Γ1 e h1 _ p hp => by cases hp)
  dsimp only
  cases o with
  | none =>
    dsimp only
    split
    · exact fun Γ3 h3 p hp => by cases hp; exact ⟨_, rfl⟩
    · exact hbad (fails_first (fails_putLoop _ _ _ _ _))
  | some a =>
    obtain ⟨i, hi⟩ := ho
    refine Ok.bind (sim_nearestNode (h2 _ _ hi) _) (fun Γ3 r h3 _ => ?_) (fun Γ1 e h1 _ p hp => by cases hp)
    obtain ⟨m, path⟩ := r
    have hrest : ∀ Γ' old, Ok s0 true (if cas old ⟨q, k, v⟩ = false then Pure.pure (Prepared.done (m, none))
        else do
          let ch ← Prog.putLoop m.isSome path (Changes.new q k v) q []
          Pure.pure (Prepared.commit ch (m, some q))) Γ' fun _ r => ∀ p, r = .ok p → ∃ a, p = .done a := by
      intro Γ' old
      split
      · exact fun Γ3 h3 p hp => by cases hp; exact ⟨_, rfl⟩
      · exact hbad (fails_first (fails_putLoop _ _ _ _ _))
    cases m with
    | none => exact hrest Γ3 none
    | some q' =>
      refine Ok.bind (ok_orPanic _ path.head?) (fun Γ4 x h4 _ => ?_) (fun Γ1 e h1 _ p hp => by cases hp)
      refine Ok.bind (ok_getKeyValue _ _) (fun Γ5 kv h5 _ => ?_) (fun Γ1 e h1 _ p hp => by cases hp)
      exact hrest Γ5 (some kv)

theorem ok_putCas {Γ : Names} (k : Bytes) (v : Option Bytes) (cas : Option KeyValueData → KeyValueData → Bool) :
    Ok s0 true (Prog.putCompareAndSwap k v cas) Γ fun _ _ => True := by
  unfold Prog.putCompareAndSwap
  refine Ok.bind (ok_putPrepare k v cas) (fun Γ1 p h1 hp => ?_) fun _ _ _ _ => trivial
  obtain ⟨a, rfl⟩ := hp p rfl
  exact ok_pure _

theorem ok_put {Γ : Names} (k : Bytes) (v : Option Bytes) : Ok s0 true (Prog.put k v) Γ fun _ _ => True := by
  unfold Prog.put
  exact ok_true_bind (ok_putCas _ _ _) fun Γ1 r h1 => ok_true_bind (ok_orPanic _ _) fun Γ2 n h2 => ok_pure _

theorem fails_delChanges {Γ : Names} (k : Bytes) (path : NodePath) :
    Ok s0 true (Prog.delChanges k path) Γ Fails := by
  unfold Prog.delChanges
  refine fails_bind sim_version.ok fun Γ1 v h1 => ?_
  dsimp only
  cases path with
  | nil => exact fun _ _ => ⟨_, rfl⟩
  | cons x path =>
    exact fails_first (fails_edit _ _ _)

theorem ok_delCas {Γ : Names} (k : Bytes) (cas : KeyValueData → Bool) :
    Ok s0 true (Prog.delCompareAndSwap k cas) Γ fun _ _ => True := by
  have hp : Ok s0 true (Prog.delPrepare k cas) Γ fun _ r => ∀ p, r = .ok p → ∃ a, p = .done a := by
    unfold Prog.delPrepare
    refine Ok.bind (ok_getRoot false) (fun Γ1 o h1 ho => ?_) (fun Γ1 e h1 _ p hp => by cases hp)
    cases o with
    | none => exact fun Γ3 h3 p hp => by cases hp; exact ⟨_, rfl⟩
    | some a =>
      obtain ⟨i, hi⟩ := ho
      refine Ok.bind (sim_nearestNode hi _) (fun Γ3 r h3 _ => ?_) (fun Γ1 e h1 _ p hp => by cases hp)
      obtain ⟨m, path⟩ := r
      cases m with
      | none => exact fun Γ3 h3 p hp => by cases hp; exact ⟨_, rfl⟩
      | some q =>
        refine Ok.bind (ok_orPanic _ path.head?) (fun Γ4 x h4 _ => ?_) (fun Γ1 e h1 _ p hp => by cases hp)
        refine Ok.bind (ok_getKeyValue _ _) (fun Γ5 kv h5 _ => ?_) (fun Γ1 e h1 _ p hp => by cases hp)
        split
        · exact fun Γ3 h3 p hp => by cases hp; exact ⟨_, rfl⟩
        · exact Ok.imp (fails_first (fails_delChanges k path)) fun Γ' r _ ⟨e, he⟩ p hp => by rw [he] at hp; cases hp
  unfold Prog.delCompareAndSwap
  refine Ok.bind hp (fun Γ1 p h1 hp => ?_) fun _ _ _ _ => trivial
  obtain ⟨a, rfl⟩ := hp p rfl
  exact ok_pure _

theorem ok_del {Γ : Names} (k : Bytes) : Ok s0 true (Prog.del k) Γ fun _ _ => True := by
  unfold Prog.del
  refine ok_true_bind (ok_delCas _ _) fun Γ1 r h1 => ?_
  cases r with
  | none => exact ok_pure _
  | some x =>
    dsimp only
    split
    · exact ok_pure _
    · exact ok_throw _

/-- Every call, up to its first write. -/
theorem ok_exec {Γ : Names} (c : Cmd) : Ok s0 true (Prog.exec c) Γ fun _ _ => True := by
  cases c with
  | version => exact (sim_exec (c := .version) rfl).ok
  | get k => exact (sim_exec (c := .get k) rfl).ok
  | traverse b rs => exact (sim_exec (c := .traverse b rs) rfl).ok
  | put k v => exact ok_replyOf (ok_put k v)
  | putCas k v cas => exact ok_replyOf (ok_putCas k v cas)
  | del k => exact ok_replyOf (ok_del k)
  | delCas k cas => exact ok_replyOf (ok_delCas k cas)
  | createHeader m => exact ok_replyOf (ok_createHeader m)
  | reopen => exact fun _ _ => trivial

/-! ## Every call ends -/

/-- The program ends in a reply, whatever its steps come to. -/
def Replies : Prog α → Prop
  | .pure _ => True
  | .throw _ => False
  | .step _ k => ∀ r, Replies (k r)

theorem replies_replyOf (f : α → Reply) : ∀ p : Prog α, Replies (Prog.replyOf f p) := by
  intro p
  induction p with
  | pure a => trivial
  | throw e => trivial
  | step x k ih => exact fun r => ih r

theorem replies_exec (c : Cmd) : Replies (Prog.exec c) := by
  cases c <;> first | exact replies_replyOf _ _ | trivial

theorem Prog.ends {i : Nat} {p : Prog α} (hr : Replies p) : ∀ {ps : List (Prog α)} (f : Nat → Nat) (s : St),
    ps[i]? = some p → (∀ n, ∃ m, n ≤ m ∧ f m = i) →
    ∃ n r, (Prog.interleave ((List.range n).map f) ps s).1[i]? = some (.pure r) := by
  induction p with
  | pure a => intro ps f s h _; exact ⟨0, a, h⟩
  | throw e => exact hr.elim
  | step x k ih =>
    intro ps f s h hf
    obtain ⟨m, _, hm⟩ := hf 0
    induction m generalizing f ps s with
    | zero =>
      obtain ⟨n, r, hn⟩ := ih (x.run s).1 (hr _) (ps := ps.set i (k (x.run s).1)) (fun n => f (n + 1)) (x.run s).2
        (by simp [(List.getElem?_eq_some_iff.mp h).1]) (fun n => by
          obtain ⟨m, h1, h2⟩ := hf (n + 1)
          exact ⟨m - 1, by omega, by rw [Nat.sub_add_cancel (by omega)]; exact h2⟩)
      refine ⟨n + 1, r, ?_⟩
      rw [List.range_succ_eq_map, List.map_cons, List.map_map, hm]
      unfold Prog.interleave
      rw [h]
      exact hn
    | succ m ihm =>
      have hf' : ∀ n, ∃ m, n ≤ m ∧ f (m + 1) = i := fun n => by
        obtain ⟨m, h1, h2⟩ := hf (n + 1)
        exact ⟨m - 1, by omega, by rw [Nat.sub_add_cancel (by omega)]; exact h2⟩
      by_cases h0 : f 0 = i
      · obtain ⟨n, r, hn⟩ := ih (x.run s).1 (hr _) (ps := ps.set i (k (x.run s).1)) (fun n => f (n + 1)) (x.run s).2
          (by simp [(List.getElem?_eq_some_iff.mp h).1]) hf'
        refine ⟨n + 1, r, ?_⟩
        rw [List.range_succ_eq_map, List.map_cons, List.map_map, h0]
        unfold Prog.interleave
        rw [h]
        exact hn
      · cases hq : ps[f 0]? with
        | none =>
          obtain ⟨n, r, hn⟩ := ihm (ps := ps) (fun n => f (n + 1)) s h hf' (Nat.zero_le _) hm
          refine ⟨n + 1, r, ?_⟩
          rw [List.range_succ_eq_map, List.map_cons, List.map_map]
          unfold Prog.interleave
          rw [hq]
          exact hn
        | some q =>
          obtain ⟨n, r, hn⟩ := ihm (ps := ps.set (f 0) (q.next s).1) (fun n => f (n + 1)) (q.next s).2
            (by rw [List.getElem?_set_ne h0]; exact h) hf' (Nat.zero_le _) hm
          refine ⟨n + 1, r, ?_⟩
          rw [List.range_succ_eq_map, List.map_cons, List.map_map]
          unfold Prog.interleave
          rw [hq]
          exact hn

end Hyperbee
