import Verif.Model.Space
import Verif.SpecSpace
import Verif.Proof.Clean
import Verif.Proof.STree
import Verif.Proof.Foreign
import Verif.Proof.Debug
import Mathlib.Data.List.Dedup
/-!
# Missing blocks outside of the tree
-/

namespace Hyperbee

/-- `m` does the same whether blocks are missing or not, unless it names a missing one. -/
structure Lock {α : Type} (m : M α) : Prop where
  io : ∀ s, (m s).2.io = s.io
  same : ∀ s, m s.full = ((m s).1, (m s).2.full) ∨
    ∃ q, (m s).1 = .error (.noBlockAtSeq q) ∧ s.io.readable q = false

theorem Lock.bind {α β : Type} {m : M α} {f : α → M β} (hm : Lock m) (hf : ∀ a, Lock (f a)) : Lock (m >>= f) := by
  refine ⟨fun s => ?_, fun s => ?_⟩
  · rw [bind_run]
    have h1 := hm.io s
    cases hr : m s with
    | mk r s1 =>
      rw [hr] at h1
      cases r with
      | error e => exact h1
      | ok a => exact ((hf a).io s1).trans h1
  · rw [bind_run, bind_run]
    have h1 := hm.io s
    have h2 := hm.same s
    cases hr : m s with
    | mk r s1 =>
      rw [hr] at h1 h2
      simp only at h1 h2
      rcases h2 with h2 | ⟨q, h2, h3⟩
      · rw [h2]
        cases r with
        | error e => exact .inl rfl
        | ok a =>
          rcases (hf a).same s1 with h4 | ⟨q, h4, h5⟩
          · exact .inl h4
          · exact .inr ⟨q, h4, by rw [← h1]; exact h5⟩
      · subst h2
        exact .inr ⟨q, rfl, h3⟩

/-- `m` neither reads nor changes what can be read and written. -/
theorem Lock.plain {α : Type} {m : M α} (h : ∀ s io, m { s with io := io } = ((m s).1, { (m s).2 with io := io })) :
    Lock m := by
  have hio : ∀ s, (m s).2.io = s.io := fun s => congrArg (fun x => x.2.io) (h s s.io)
  refine ⟨hio, fun s => .inl ?_⟩
  rw [show s.full = { s with io := ⟨fun _ => true, s.io.appendOk⟩ } from rfl, h s _]
  simp only [St.full, hio]

theorem lock_pure {α : Type} (a : α) : Lock (Pure.pure a : M α) := .plain fun _ _ => rfl

theorem lock_throw {α : Type} (e : Err) : Lock (Hyperbee.throw e : M α) := .plain fun _ _ => rfl

theorem lock_orPanic {α : Type} (site : String) (o : Option α) : Lock (Hyperbee.orPanic site o) := by
  cases o
  · exact lock_throw _
  · exact lock_pure _

theorem lock_alloc (n : Node) : Lock (Hyperbee.alloc n) := .plain fun _ _ => rfl

theorem lock_allocLevels : ∀ ls, Lock (allocLevels ls)
  | [] => lock_pure _
  | l :: ls => by
    unfold allocLevels
    exact (lock_orPanic _ _).bind fun n => (lock_alloc n).bind fun a => (lock_allocLevels ls).bind fun as => lock_pure _

theorem lock_blockEntryNew (m : NodeSchema) : Lock (blockEntryNew m) := by
  unfold blockEntryNew
  refine Lock.bind ?_ fun _ => lock_pure _
  unfold makeNodeVec
  split
  · exact lock_throw _
  · exact lock_allocLevels _

theorem lock_coreAppend (b : Bytes) : Lock (coreAppend b) := by
  refine ⟨fun s => ?_, fun s => .inl ?_⟩
  · unfold coreAppend; split <;> rfl
  · cases h : s.io.appendOk <;> simp [coreAppend, St.full, h]

theorem lock_version : Lock version := .plain fun _ _ => rfl

theorem lock_createHeader (m : Option Metadata) : Lock (createHeader m) := by
  unfold createHeader
  refine lock_version.bind fun v => ?_
  split
  · exact lock_throw _
  · exact lock_coreAppend _

theorem createHeader_never (m : Option Metadata) (s : St) (q : Nat) : (createHeader m s).1 ≠ .error (.noBlockAtSeq q) := by
  unfold createHeader
  rw [bind_ok (version_run s)]
  split
  · intro h; cases h
  · unfold coreAppend; split <;> intro h <;> cases h

theorem lock_ensureHeader : Lock ensureHeader := by
  have h := lock_createHeader none
  refine ⟨fun s => ?_, fun s => .inl ?_⟩
  · have := h.io s
    unfold ensureHeader
    split <;> simp_all
  · rcases h.same s with h1 | ⟨q, h1, _⟩
    · unfold ensureHeader
      rw [h1]
      cases hc : createHeader none s with
      | mk r s1 =>
        cases r with
        | ok a => rfl
        | error e => cases e <;> rfl
    · exact absurd h1 (createHeader_never none s q)

/-- What `get_from_core` does if nothing is missing. -/
def coreEntry (q : Nat) : M (Option BlockEntry) := fun s =>
  (match s.core[q]? with
    | some x =>
      match decodeNode x with
      | none => Hyperbee.throw .decode
      | some node => do
        let e ← blockEntryNew node
        Pure.pure (some e)
    | none => Pure.pure none : M (Option BlockEntry)) s

def keepEntry (q : Nat) : Option BlockEntry → M BlockEntry
  | none => Hyperbee.throw (.noBlockAtSeq q)
  | some e => do
    modifySt fun s => { s with cache := cacheInsert q e s.cache }
    Pure.pure e

theorem lock_coreEntry (q : Nat) : Lock (coreEntry q) := by
  have hb : ∀ x : Bytes, Lock (match decodeNode x with
      | none => Hyperbee.throw .decode
      | some node => do
        let e ← blockEntryNew node
        Pure.pure (some e) : M (Option BlockEntry)) := by
    intro x
    split
    · exact lock_throw _
    · exact (lock_blockEntryNew _).bind fun _ => lock_pure _
  refine ⟨fun s => ?_, fun s => ?_⟩
  · unfold coreEntry
    cases s.core[q]? with
    | none => rfl
    | some x => exact (hb x).io s
  · unfold coreEntry
    simp only [show s.full.core = s.core from rfl]
    cases s.core[q]? with
    | none => exact .inl rfl
    | some x => exact (hb x).same s

theorem lock_keepEntry (q : Nat) (o : Option BlockEntry) : Lock (keepEntry q o) := by
  cases o with
  | none => exact lock_throw _
  | some e => exact Lock.bind (.plain fun _ _ => rfl) fun _ => lock_pure _

theorem blocksGet_entry {q : Nat} {s : St} (hq : s.cache q = none) (hr : s.io.readable q = true) :
    blocksGet q s = (coreEntry q >>= keepEntry q) s := by
  have hg : getFromCache q s = (.ok none, s) := by simp [getFromCache, hq]
  have hcg : coreGet q s = (.ok s.core[q]?, s) := by simp [coreGet, hr]
  have hf : getFromCore q s = coreEntry q s := by
    unfold getFromCore
    rw [bind_ok hcg]
    rfl
  unfold blocksGet
  rw [bind_ok hg]
  simp only []
  rw [bind_run, bind_run, hf]
  cases coreEntry q s with
  | mk r s1 =>
    cases r with
    | error e => rfl
    | ok o => cases o <;> rfl

theorem lock_blocksGet (q : Nat) : Lock (blocksGet q) := by
  refine ⟨fun s => ?_, fun s => ?_⟩
  · rcases blocksGet_cases q s with ⟨e, _, h1⟩ | ⟨hq, ⟨_, h1⟩ | ⟨_, ⟨b, hb, h1⟩ | ⟨_, _, e, xs, h1, _⟩⟩⟩ <;> rw [h1]
    rfl
  · cases hq : s.cache q with
    | some e =>
      left
      have hg : ∀ s' : St, s'.cache q = some e → blocksGet q s' = (.ok e, s') := by
        intro s' h'
        unfold blocksGet
        rw [bind_ok (show getFromCache q s' = (.ok (some e), s') by simp [getFromCache, h'])]
        rfl
      rw [hg s hq, hg s.full hq]
    | none =>
      cases hr : s.io.readable q with
      | false =>
        right
        rcases blocksGet_cases q s with ⟨e, h0, _⟩ | ⟨_, ⟨_, h1⟩ | ⟨h0, _⟩⟩
        · rw [hq] at h0; cases h0
        · exact ⟨q, by rw [h1], hr⟩
        · rw [hr] at h0; cases h0
      | true =>
        rw [blocksGet_entry hq hr, blocksGet_entry (s := s.full) hq rfl]
        exact ((lock_coreEntry q).bind (lock_keepEntry q)).same s

theorem lock_acts : Acts (fun _ m => Lock m) where
  pure := lock_pure
  throw := lock_throw
  bind := Lock.bind
  readNode a := .plain fun s io => by
    unfold readNode
    simp only
    cases s.heap[a]? <;> rfl
  version := lock_version
  descentFuel := .plain fun _ _ => rfl
  blocksGet := lock_blocksGet
  writeNode _ _ := .plain fun _ _ => rfl
  alloc := lock_alloc
  coreAppend := lock_coreAppend
  ensureHeader := lock_ensureHeader

/-! ## What reading does to a handle -/

/-- `m` only loads blocks. -/
def Fetches {α : Type} (m : M α) : Prop := ∀ s, SWF s.full → (m s).2.io = s.io ∧ Ext s.full (m s).2.full

theorem fetches_reads : Reads (fun _ m => Fetches m) where
  pure _ := fun s h => ⟨rfl, .refl h⟩
  throw _ := fun s h => ⟨rfl, .refl h⟩
  bind {α β m f} hm hf := fun s h => by
    rw [bind_run]
    have h1 := hm s h
    cases hr : m s with
    | mk r s1 =>
      rw [hr] at h1
      cases r with
      | error e => exact h1
      | ok a =>
        have h2 := hf a s1 h1.2.wf
        exact ⟨h2.1.trans h1.1, h1.2.trans h2.2⟩
  tryResult {α m} hm := fun s h => by
    have h1 := hm s h
    unfold tryResult
    cases hr : m s with
    | mk r s1 =>
      rw [hr] at h1
      cases r with
      | ok a => exact h1
      | error e => cases e <;> exact h1
  readNode a := fun s h => by
    unfold readNode
    split <;> exact ⟨rfl, .refl h⟩
  version := fun s h => ⟨rfl, .refl h⟩
  descentFuel := fun s h => ⟨rfl, .refl h⟩
  blocksGet q := fun s h => by
    rcases blocksGet_cases q s with ⟨e, _, h1⟩ | ⟨hq, ⟨_, h1⟩ | ⟨_, ⟨b, hb, h1⟩ | ⟨_, _, e, xs, h1, _⟩⟩⟩ <;> rw [h1]
    · exact ⟨rfl, .refl h⟩
    · exact ⟨rfl, .refl h⟩
    · exact ⟨rfl, ext_loaded (s := s.full) h hq hb⟩
    · refine ⟨rfl, rfl, rfl, ⟨xs, rfl⟩, fun _ _ h => h, fun _ _ h => .inl h, h.rd, h.ent, fun r a ha => ?_, h.inj⟩
      have := h.lt r a ha
      simp only [St.full, List.length_append] at this ⊢
      omega

theorem replyOf_state (m : M α) (f : α → Reply) (s : St) : (replyOf m f s).2 = (m s).2 := by
  unfold replyOf
  cases m s with
  | mk r s1 => cases r <;> rfl

/-! ## A call on a core without unused blocks -/

/-- What holds of a handle on a core from which only unused blocks were removed. -/
structure Pruned (s : St) (d : Db) : Prop where
  holds : Holds s.full d
  tree : ∀ q, InTree s.core q → s.io.readable q = true
  new : ∀ q, s.core.length ≤ q → s.io.readable q = true

theorem Pruned.same {s : St} {d : Db} (h : Pruned s d) (c : Cmd) :
    (exec c s.full).1 = (exec c s).1 ∧ (exec c s.full).2.core = (exec c s).2.core :=
  sparse_same h.holds (s2 := s) ⟨h.holds.wf, fun H t ht => h.holds.sparse.coh H t ht⟩ rfl h.holds.ok h.tree c

theorem Lock.holds {s : St} {d : Db} (h : Pruned s d) {m : M α} (hm : Lock m) {c : Cmd} {f : α → Reply}
    (he : ∀ s, exec c s = replyOf m f s) (hno : ∀ q, ¬ d.Returns c (.error (.noBlockAtSeq q))) :
    Holds ({ (exec c s).2 with io := s.io } : St).full (d.next c) := by
  have hr := exec_refines h.holds c
  have hio := hm.io s
  rw [he] at hr ⊢
  rcases hm.same s with h1 | ⟨q, h1, _⟩
  · have h2 := hr.2
    rw [replyOf_state, h1] at h2
    rw [replyOf_state]
    simp only [St.full, hio] at h2 ⊢
    exact h2
  · exfalso
    have hs := (h.same c).1
    rw [he, he] at hs
    rw [hs] at hr
    have : (replyOf m f s).1 = .error (.noBlockAtSeq q) := by
      unfold replyOf
      cases hms : m s with
      | mk r s1 => rw [hms] at h1; simp only at h1; subst h1; rfl
    rw [this] at hr
    exact hno q hr.1

theorem Fetches.holds {s : St} {d : Db} (h : Pruned s d) {m : M α} (hm : Fetches m) {c : Cmd} {f : α → Reply}
    (he : ∀ s, exec c s = replyOf m f s) (hn : d.next c = d) :
    Holds ({ (exec c s).2 with io := s.io } : St).full (d.next c) := by
  obtain ⟨h1, h2⟩ := hm s h.holds.wf
  rw [he, replyOf_state, hn]
  have := h.holds.ext h2
  simp only [St.full, h1] at this ⊢
  exact this

theorem Pruned.step {s : St} {d : Db} (h : Pruned s d) (c : Cmd) :
    Holds (callCleared c s).2.full (d.next c) := by
  unfold callCleared
  simp only
  cases c with
  | version => exact Fetches.holds h fetches_reads.version (fun _ => rfl) rfl
  | get k => exact Fetches.holds h (fetches_reads.toLooks.get_ k) (fun _ => rfl) rfl
  | traverse b sched => exact Fetches.holds h (fetches_reads.traverseSession_ b sched) (fun _ => rfl) rfl
  | put k v => exact Lock.holds h (lock_acts.put_ k v) (fun _ => rfl) (fun q hq => by simp [Db.Returns] at hq)
  | putCas k v cas => exact Lock.holds h (lock_acts.putCAS_ k v cas) (fun _ => rfl) (fun q hq => by simp [Db.Returns] at hq)
  | del k => exact Lock.holds h (lock_acts.del_ k) (fun _ => rfl) (fun q hq => by simp [Db.Returns] at hq)
  | delCas k cas => exact Lock.holds h (lock_acts.delCAS_ k cas) (fun _ => rfl) (fun q hq => by simp [Db.Returns] at hq)
  | createHeader m =>
    exact Lock.holds h (lock_acts.createHeader_ m) (fun _ => rfl)
      (fun q hq => by simp only [Db.Returns] at hq; split at hq <;> cases hq)
  | reopen =>
    have := (exec_refines h.holds .reopen).2
    have hok := h.holds.ok
    simp only [St.full] at hok
    simp only [exec, St.full, hok] at this ⊢
    exact this

/-- A call brings into use no block but the one it appends. -/
theorem inTree_step {s : St} {d : Db} (h : Holds s d) (c : Cmd) {q : Nat} (hq : InTree (exec c s).2.core q) :
    InTree s.core q ∨ s.core.length ≤ q := by
  obtain ⟨H0, t0, ht0, hq⟩ := hq
  cases exec_step h c with
  | same hc _ => rw [hc] at ht0; exact .inl ⟨H0, t0, ht0, hq⟩
  | header m _ hc _ => have := ht0.two; rw [hc] at this; simp at this
  | first k v t' h1 _ w =>
    obtain rfl := ht0.unique w.tree
    have hl : s.ready.core.length = 1 := by
      have := w.tree.two
      obtain ⟨ns, hns, _⟩ := w.core
      rcases ready_core s with hr | ⟨_, hr⟩
      · rw [hns, hr] at this
        simp at this
        rw [hr]; omega
      · rw [hr]; rfl
    right
    rcases hq with hq | ⟨i, hi⟩
    · rw [w.flat] at hq
      simp at hq
      omega
    · by_cases hne : q = s.ready.core.length
      · omega
      · exact (w.live _ hi hne).elim
  | put k v H t H' t' m pre post ht _ l w _ =>
    obtain rfl := ht0.unique w.tree
    rcases hq with hq | ⟨i, hi⟩
    · rw [w.flat] at hq
      have : q ∈ t.flat ∨ q = s.core.length := by
        rw [l.eq]
        simp only [List.mem_append, List.mem_cons] at hq ⊢
        rcases hq with hq | hq | hq
        · exact .inl (.inl (.inl hq))
        · exact .inr hq
        · exact .inl (.inr hq)
      rcases this with h | h
      · exact .inl ⟨H, t, ht, .inl h⟩
      · exact .inr (by omega)
    · by_cases hne : q = s.core.length
      · exact .inr (by omega)
      · exact .inl ⟨H, t, ht, .inr ⟨i, w.live _ hi hne⟩⟩
  | del k H t H' t' m pre post ht _ l w _ =>
    obtain rfl := ht0.unique w.tree
    rcases hq with hq | ⟨i, hi⟩
    · rw [w.flat] at hq
      refine .inl ⟨H, t, ht, .inl ?_⟩
      rw [l.eq]
      simp only [List.mem_append] at hq ⊢
      rcases hq with hq | hq
      · exact .inl (.inl hq)
      · exact .inr hq
    · by_cases hne : q = s.core.length
      · exact .inr (by omega)
      · exact .inl ⟨H, t, ht, .inr ⟨i, w.live _ hi hne⟩⟩

theorem core_grows {s : St} {d : Db} (h : Holds s d) (c : Cmd) : s.core.length ≤ (exec c s).2.core.length := by
  rcases (exec_step h c).core_cases with ⟨h, _⟩ | ⟨h0, _⟩ | ⟨b, h, _⟩ | ⟨h0, _⟩
  · exact Nat.le_of_eq (by rw [h])
  · rw [h0]; simp
  · rw [h]; simp
  · rw [h0]; simp

theorem Pruned.call {s : St} {d : Db} (h : Pruned s d) (c : Cmd) :
    Pruned (callCleared c s).2 (d.next c) ∧ (callCleared c s).1 = (exec c s.full).1 ∧
      (callCleared c s).2.core = (exec c s.full).2.core := by
  obtain ⟨h1, h2⟩ := h.same c
  have hcore : (callCleared c s).2.core = (exec c s.full).2.core := h2.symm
  refine ⟨⟨h.step c, fun q hq => ?_, fun q hq => ?_⟩, h1.symm, hcore⟩
  · rw [hcore] at hq
    rcases inTree_step h.holds c hq with hq | hq
    · exact h.tree q hq
    · exact h.new q hq
  · rw [hcore] at hq
    exact h.new q (Nat.le_trans (core_grows h.holds c) hq)

/-! ## The blocks in use -/

theorem wire_node {c : List Bytes} {q i : Nat} {m : NodeSchema} {ls : List Level} {l : Level} {n : Node}
    (hn : nodeAt c ⟨q, i⟩ = some n) (hb : wireBlock c q = some (m, ls)) (hl : ls[i]? = some l) :
    l.keys = n.keys ∧ l.children = n.children.flatMap fun c => [c.seq, c.offset] := by
  obtain ⟨b, h1, h2⟩ := nodeAt_block hn
  obtain ⟨m', ls', h3, _, _, h4⟩ := wireBlock_blockAt h1
  rw [h3] at hb
  cases hb
  obtain ⟨l', h5, h6, h7⟩ := (levelsToNodes_get h4).2 i n h2
  rw [hl] at h5
  cases h5
  exact ⟨h6, h7⟩

theorem node_wire {c : List Bytes} {q i : Nat} {n : Node} (hn : nodeAt c ⟨q, i⟩ = some n) :
    ∃ m ls l, wireBlock c q = some (m, ls) ∧ ls[i]? = some l ∧ l.keys = n.keys ∧
      l.children = (n.children.map fun c => (c.seq, c.offset)).flatMap fun r => [r.1, r.2] := by
  obtain ⟨b, h1, h2⟩ := nodeAt_block hn
  obtain ⟨m', ls', h3, _, _, h4⟩ := wireBlock_blockAt h1
  obtain ⟨l', h5, h6, h7⟩ := (levelsToNodes_get h4).2 i n h2
  exact ⟨m', ls', l', h3, h5, h6, by rw [h7, List.flatMap_map]⟩

theorem mem_flat {q : Nat} {t : T} : q ∈ t.flat ↔ q ∈ t.keys ∨ ∃ u ∈ t.kids, q ∈ u.flat := by
  rw [T.flat_eq]
  exact ⟨mem_flatL_inv, mem_flatL⟩

theorem uses_rep {c : List Bytes} {p : Nat} {t : T} (h : Rep (nodeAt c) t) :
    Uses c p t.ref.seq t.ref.offset ↔ p ∈ t.flat ∨ ∃ i, ⟨p, i⟩ ∈ t.refs := by
  induction h with
  | @mk r ks ts hn hk ih =>
    obtain ⟨q, i⟩ := r
    obtain ⟨m, ls, l, h1, h2, h3, h4⟩ := node_wire hn
    simp only at h3 h4
    rw [mem_flat]
    simp only [T.ref, T.keys, T.kids, T.refs, List.mem_cons, Child.mk.injEq]
    constructor
    · intro h
      cases h with
      | here _ _ => exact .inr ⟨i, .inl ⟨rfl, rfl⟩⟩
      | key b2 l2 hm =>
        obtain ⟨e1, _⟩ := wire_node hn b2 l2
        rw [e1] at hm
        exact .inl (.inl hm)
      | @child _ _ m2 ls2 l' refs r b2 l2 hc hm hb =>
        rw [h1] at b2
        cases b2
        rw [h2] at l2
        cases l2
        rw [h4] at hc
        have := flatMap_pair_inj hc
        subst this
        simp only [List.map_map, List.mem_map, Function.comp] at hm
        obtain ⟨u, hu, rfl⟩ := hm
        rcases (ih u hu).mp hb with h | ⟨j, h⟩
        · exact .inl (.inr ⟨u, hu, h⟩)
        · exact .inr ⟨j, .inr (mem_refsL.mpr ⟨u, hu, h⟩)⟩
    · rintro ((h | ⟨u, hu, h⟩) | ⟨j, ⟨rfl, rfl⟩ | h⟩)
      · exact .key h1 h2 (by rw [h3]; exact h)
      · exact .child h1 h2 h4 (r := (u.ref.seq, u.ref.offset)) (by simp; exact ⟨u, hu, rfl, rfl⟩) ((ih u hu).mpr (.inl h))
      · exact .here h1 (List.getElem?_eq_some_iff.mp h2).1
      · obtain ⟨u, hu, h⟩ := mem_refsL.mp h
        exact .child h1 h2 h4 (r := (u.ref.seq, u.ref.offset)) (by simp; exact ⟨u, hu, rfl, rfl⟩) ((ih u hu).mpr (.inr ⟨j, h⟩))

theorem TreeAt.needed {c : List Bytes} {H : Nat} {t : T} (h : TreeAt c H t) {p : Nat} :
    Needed c p ↔ p ∈ t.flat ∨ ∃ i, ⟨p, i⟩ ∈ t.refs := by
  rw [← uses_rep h.rep, h.ref]
  exact ⟨fun x => x.2, fun x => ⟨h.two, x⟩⟩

theorem Holds.needed {s : St} {d : Db} (h : Holds s d) {p : Nat} : Needed s.core p ↔ InTree s.core p := by
  constructor
  · intro hn
    rcases h.store with hb | ⟨H, t, ht, _⟩
    · have := hn.1; have := hb.1; omega
    · exact ⟨H, t, ht, ht.needed.mp hn⟩
  · rintro ⟨H, t, ht, hp⟩
    exact ht.needed.mpr hp

/-! ## A block in use that is missing -/

/-- `m` does not get hold of a block that cannot be read. -/
def Lacks (p : Nat) {α : Type} (m : M α) : Prop :=
  ∀ s, s.cache p = none → s.io.readable p = false → (m s).2.cache p = none ∧ (m s).2.io = s.io

theorem lacks_looks (p : Nat) : Looks (fun _ m => Lacks p m) where
  pure _ := fun s h _ => ⟨h, rfl⟩
  throw _ := fun s h _ => ⟨h, rfl⟩
  bind {α β m f} hm hf := fun s h h' => by
    rw [bind_run]
    have h1 := hm s h h'
    cases hr : m s with
    | mk r s1 =>
      rw [hr] at h1
      cases r with
      | error e => exact h1
      | ok a =>
        have h2 := hf a s1 h1.1 (by rw [h1.2]; exact h')
        exact ⟨h2.1, h2.2.trans h1.2⟩
  readNode a := fun s h _ => by
    unfold readNode
    split <;> exact ⟨h, rfl⟩
  version := fun s h _ => ⟨h, rfl⟩
  descentFuel := fun s h _ => ⟨h, rfl⟩
  blocksGet q := fun s h h' => by
    rcases blocksGet_cases q s with ⟨e, _, h1⟩ | ⟨hq, ⟨_, h1⟩ | ⟨hr, ⟨b, hb, h1⟩ | ⟨_, _, e, xs, h1, _⟩⟩⟩ <;> rw [h1]
    · exact ⟨h, rfl⟩
    · exact ⟨h, rfl⟩
    · refine ⟨?_, rfl⟩
      have : p ≠ q := by rintro rfl; rw [h'] at hr; cases hr
      simp [loaded, cacheInsert, this, h]
    · exact ⟨h, rfl⟩

/-- If `m` gets hold of block `p` when nothing is missing, it fails when `p` is. -/
theorem Lock.fails {m : M α} {p : Nat} (hl : Lock m) (hp : Lacks p m) {s : St} (h0 : s.cache p = none)
    (hr : ∀ q, s.io.readable q = false ↔ q = p) (hc : (m s.full).2.cache p ≠ none) :
    (m s).1 = .error (.noBlockAtSeq p) := by
  rcases hl.same s with h | ⟨q, h, hq⟩
  · rw [h] at hc
    exact absurd (hp s h0 ((hr p).mpr rfl)).1 hc
  · rw [h, (hr q).mp hq]

theorem sum_two {α : Type} {f : α → Nat} : ∀ {l : List α} {a b : α}, a ∈ l → b ∈ l → a ≠ b → f a + f b ≤ (l.map f).sum
  | x :: l, a, b, ha, hb, hne => by
    have one : ∀ {l : List α} {a : α}, a ∈ l → f a ≤ (l.map f).sum := by
      intro l
      induction l with
      | nil => intro a h; cases h
      | cons y l ih =>
        intro a h
        simp only [List.map_cons, List.sum_cons]
        rcases List.mem_cons.mp h with rfl | h
        · omega
        · have := ih h; omega
    simp only [List.map_cons, List.sum_cons]
    rcases List.mem_cons.mp ha with rfl | ha'
    · rcases List.mem_cons.mp hb with rfl | hb'
      · exact absurd rfl hne
      · have h := one hb'; omega
    · rcases List.mem_cons.mp hb with rfl | hb'
      · have h := one ha'; omega
      · have := sum_two (f := f) ha' hb' hne; omega

theorem Rep.refs_down {N : Child → Option Node} {t : T} (h : Rep N t) : ∀ r ∈ t.refs, ∀ {n : Node}, N r = some n →
    ∀ c ∈ n.children, c ∈ t.refs := by
  induction t using T.ind with
  | h r ks ts ih =>
    intro r' hr' n hn c hc
    rw [T.refs] at hr' ⊢
    rcases List.mem_cons.mp hr' with rfl | hr'
    · have := h.node
      rw [show (T.mk r' ks ts).ref = r' from rfl, hn] at this
      cases this
      obtain ⟨t', ht', rfl⟩ := List.mem_map.mp hc
      exact List.mem_cons_of_mem _ (mem_refsL.mpr ⟨t', ht', t'.ref_mem_refs⟩)
    · obtain ⟨t', ht', hr'⟩ := mem_refsL.mp hr'
      exact List.mem_cons_of_mem _ (mem_refsL.mpr ⟨t', ht', ih t' ht' (h.kids t' ht') r' hr' hn c hc⟩)

theorem keys_flat {N : Child → Option Node} {t : T} (h : Rep N t) {r : Child} (hr : r ∈ t.refs) {n : Node}
    (hn : N r = some n) {q : Nat} (hq : q ∈ n.keys) : q ∈ t.flat := by
  induction h with
  | @mk r0 ks ts h0 hk ih =>
    rw [mem_flat]
    simp only [T.refs, List.mem_cons] at hr
    rcases hr with rfl | hr
    · rw [h0] at hn; cases hn; exact .inl hq
    · obtain ⟨u, hu, hr⟩ := mem_refsL.mp hr
      exact .inr ⟨u, hu, ih u hu hr⟩

/-- A key is in one node only. -/
theorem one_node {N : Child → Option Node} {t : T} (h : Rep N t) (hd : t.flat.Nodup) {r r' : Child}
    (hr : r ∈ t.refs) (hr' : r' ∈ t.refs) {n n' : Node} (hn : N r = some n) (hn' : N r' = some n') {q : Nat}
    (hq : q ∈ n.keys) (hq' : q ∈ n'.keys) : r = r' := by
  induction h with
  | @mk r0 ks ts h0 hk ih =>
    have hone := List.nodup_iff_count_le_one.mp hd q
    rw [T.flat_eq] at hone hd
    rw [count_flatL] at hone
    simp only [T.refs, List.mem_cons, T.keys, T.kids] at hr hr' hone
    have top : ∀ {x : Child} {m : Node}, x ∈ refsL ts → N x = some m → q ∈ m.keys → ¬ q ∈ ks := by
      intro x m hx hm hqm hks
      obtain ⟨u, hu, hx⟩ := mem_refsL.mp hx
      have h1 := List.count_pos_iff.mpr (keys_flat (hk u hu) hx hm hqm)
      have h2 := List.count_pos_iff.mpr hks
      have h3 : (ts.map fun t => t.flat.count q).sum ≥ u.flat.count q := by
        obtain ⟨l1, l2, rfl⟩ := List.append_of_mem hu
        simp
        omega
      omega
    rcases hr with rfl | hr <;> rcases hr' with rfl | hr'
    · rfl
    · rw [h0] at hn; cases hn
      exact absurd hq (top hr' hn' hq')
    · rw [h0] at hn'; cases hn'
      exact absurd hq' (top hr hn hq)
    · obtain ⟨u, hu, hr⟩ := mem_refsL.mp hr
      obtain ⟨u', hu', hr'⟩ := mem_refsL.mp hr'
      have h1 := List.count_pos_iff.mpr (keys_flat (hk u hu) hr hn hq)
      have h2 := List.count_pos_iff.mpr (keys_flat (hk u' hu') hr' hn' hq')
      by_cases he : u = u'
      · subst he
        refine ih u hu ?_ hr hr'
        rw [List.nodup_iff_count_le_one]
        intro x
        have hx := List.nodup_iff_count_le_one.mp hd x
        rw [count_flatL, show (T.mk r0 ks ts).kids = ts from rfl] at hx
        have h3 : (ts.map fun t => t.flat.count x).sum ≥ u.flat.count x := by
          obtain ⟨l1, l2, rfl⟩ := List.append_of_mem hu
          simp
          omega
        omega
      · have := sum_two (f := fun t : T => t.flat.count q) hu hu' he
        omega

theorem cached_addr {s : St} {r : Child} {a : Nat} (h : addrOf s r = some a) : s.cache r.seq ≠ none := by
  intro hn
  simp [addrOf, hn] at h

theorem Ext.cached {s s' : St} (e : Ext s s') {q : Nat} (h : s.cache q ≠ none) : s'.cache q ≠ none := by
  cases hq : s.cache q with
  | none => exact absurd hq h
  | some x => rw [e.cache q x hq]; simp

theorem blocksGet_cached {q : Nat} {s s' : St} {e : BlockEntry} (h : blocksGet q s = (.ok e, s')) : s'.cache q ≠ none := by
  rcases blocksGet_cases q s with ⟨e, h0, h1⟩ | ⟨hq, ⟨_, h1⟩ | ⟨_, ⟨b, hb, h1⟩ | ⟨_, _, e, xs, h1, _⟩⟩⟩
  · rw [h1] at h; cases h; rw [h0]; simp
  · rw [h1] at h; cases h
  · rw [h1] at h; cases h; simp [loaded, cacheInsert]
  · rw [h1] at h; cases h

theorem getKeyValue_cached {a i q : Nat} {s s' : St} {x : KeyValueData} {n : Node} (hn : s.heap[a]? = some n)
    (hq : n.keys[i]? = some q) (h : getKeyValue a i s = (.ok x, s')) : s'.cache q ≠ none := by
  unfold getKeyValue at h
  rw [bind_ok (readNode_some hn), hq] at h
  simp only [orPanic_some, pure_bind_run] at h
  rw [bind_run] at h
  cases h1 : blocksGet q s with
  | mk r s1 =>
    rw [h1] at h
    cases r with
    | error e => cases h
    | ok e =>
      simp only at h
      rw [bind_run] at h
      cases h2 : blocksGet q s1 with
      | mk r s2 =>
        rw [h2] at h
        cases r with
        | error e => cases h
        | ok e => cases h; exact blocksGet_cached h2

/-- What a lookup gets hold of: the top of the tree, and the block and the node of the key found. -/
theorem get_touches {s : St} {H : Nat} {t : T} (ht : TreeAt s.core H t) (hw : SWF s)
    (hc : Coh s (· ∈ t.refs)) (k : Bytes) :
    (get k s).2.cache t.ref.seq ≠ none ∧ ∀ q ∈ t.flat, keyOf s.core q = k →
      (get k s).2.cache q ≠ none ∧
      ∀ r ∈ t.refs, ∀ n, nodeAt s.core r = some n → q ∈ n.keys → (get k s).2.cache r.seq ≠ none := by
  obtain ⟨a, s1, h1, e1, ha⟩ := getRoot_run ht hw false
  obtain ⟨m, a', i, fs, n, s2, h2, e2, hf⟩ := nearestNode_run (.finite k) (s := s1) (a := a)
    (by rw [e1.core]; exact ht) e1.wf (e1.coh hw hc) ha
  have e12 := e1.trans e2
  have ht2 : TreeAt s2.core H t := by rw [e12.core]; exact ht
  obtain ⟨ka, kb, pre, post, hk1, hk2, hloc, _⟩ := hf.loc ht2
  rw [e12.core] at hloc
  unfold get
  rw [bind_ok h1]
  simp only []
  rw [bind_ok h2]
  simp only []
  have hroot := cached_addr ha
  have which : ∀ q ∈ t.flat, keyOf s.core q = k → m = some q := by
    intro q hq hk
    rw [hloc.eq] at hq
    simp only [List.mem_append, Option.mem_toList] at hq
    rcases hq with (hq | hq) | hq
    · exact absurd (hloc.lt q hq) (by rw [hk]; exact blt_irrefl _)
    · exact hq
    · exact absurd (hloc.gt q hq) (by rw [hk]; exact blt_irrefl _)
  cases m with
  | none =>
    refine ⟨e2.cached hroot, fun q hq hk => ?_⟩
    cases which q hq hk
  | some q =>
    simp only [Option.isSome_some, if_true, List.head?_cons, orPanic_some, pure_bind_run]
    obtain ⟨hn, _, _⟩ := hf.node ht2.rep (e12.coh hw hc)
    obtain ⟨hq1, _⟩ := hf.hit q rfl
    obtain ⟨b, hb⟩ := ht2.dfd q (by rw [hloc.eq]; simp)
    obtain ⟨s3, h3, e3⟩ := getKeyValue_run e2.wf hn (i := i) (q := q) hq1 hb
    rw [bind_ok h3]
    refine ⟨e3.cached (e2.cached hroot), fun q' hq hk => ?_⟩
    cases which q' hq hk
    refine ⟨getKeyValue_cached hn hq1 h3, fun r hr nd hnd hqn => ?_⟩
    have hnr : n.ref ∈ t.refs := by rw [← hf.plug]; exact plug_refs n.ref_mem_refs
    have hrep := ht.rep
    rw [← hf.plug] at hrep
    have hnode := (plug_rep hrep).node
    have : r = n.ref := one_node ht.rep ht.flat_nodup hr hnr hnd hnode hqn (List.mem_of_getElem? hq1)
    rw [this]
    exact e3.cached (cached_addr hf.addr)

theorem filled {N : Child → Option Node} : ∀ {H : Nat} {t : T}, Rep N t → GoodN false H t → ∀ r ∈ t.refs, ∀ n, N r = some n →
    4 ≤ n.keys.length := by
  intro H
  induction H with
  | zero =>
    intro t hr hg r hm n hn
    cases hr with
    | @mk r0 ks ts h0 hk =>
      obtain ⟨rfl, hf⟩ := hg
      simp only [T.refs, refsL, List.mem_cons, List.not_mem_nil, or_false] at hm
      subst hm
      rw [h0] at hn
      cases hn
      exact hf.2.1 rfl
  | succ H ih =>
    intro t hr hg r hm n hn
    cases hr with
    | @mk r0 ks ts h0 hk =>
      simp only [T.refs, List.mem_cons] at hm
      rcases hm with rfl | hm
      · rw [h0] at hn
        cases hn
        exact hg.2.1.2.1 rfl
      · obtain ⟨u, hu, hm⟩ := mem_refsL.mp hm
        exact ih (hk u hu) (hg.2.2 u hu) r hm n hn

theorem flatL_sum : ∀ (ks : List Nat) (ts : List T), (flatL ks ts).length = ks.length + (ts.map fun t => t.flat.length).sum
  | ks, [] => by simp [flatL_nil]
  | [], t :: ts => by
    have := flatL_sum [] ts
    simp only [flatL, List.length_append, List.map_cons, List.sum_cons, this]
    simp
  | k :: ks, t :: ts => by
    have := flatL_sum ks ts
    simp only [flatL, List.length_append, List.length_cons, List.map_cons, List.sum_cons, this]
    omega

theorem refsL_sum : ∀ (ts : List T), (refsL ts).length = (ts.map fun t => t.refs.length).sum
  | [] => rfl
  | t :: ts => by
    have := refsL_sum ts
    simp only [refsL, List.length_append, List.map_cons, List.sum_cons, this]

theorem nodes_few : ∀ {H : Nat} {b : Bool} {t : T}, GoodN b H t →
    4 * t.refs.length ≤ t.flat.length + (if b then 4 else 0) := by
  intro H
  induction H with
  | zero =>
    rintro b ⟨r, ks, ts⟩ ⟨rfl, hf⟩
    simp only [T.refs, refsL, T.flat, flatL_nil, List.length_cons, List.length_nil]
    cases b with
    | true => simp
    | false => have := hf.2.1 rfl; simp; omega
  | succ H ih =>
    rintro b ⟨r, ks, ts⟩ ⟨hl, hf, hk⟩
    simp only [T.refs, T.flat, List.length_cons, flatL_sum, refsL_sum]
    have : 4 * (ts.map fun t => t.refs.length).sum ≤ (ts.map fun t => t.flat.length).sum := by
      clear hf hl
      induction ts with
      | nil => simp
      | cons u ts ihl =>
        have h1 := ih (hk u (by simp))
        have h2 := ihl fun x hx => hk x (List.mem_cons_of_mem _ hx)
        simp only [Bool.false_eq_true, if_false, List.map_cons, List.sum_cons] at h1 h2 ⊢
        omega
    cases b with
    | true => simp; omega
    | false => have := hf.2.1 rfl; simp; omega

/-- How many blocks are in use. -/
theorem TreeAt.few {c : List Bytes} {H : Nat} {t : T} (ht : TreeAt c H t) :
    ∃ l : List Nat, l.Nodup ∧ (∀ p, p ∈ l ↔ Needed c p) ∧ t.flat.length ≤ l.length ∧
      l.length ≤ t.flat.length + t.flat.length / 4 + 1 := by
  refine ⟨(t.flat ++ t.refs.map (·.seq)).dedup, List.nodup_dedup _, fun p => ?_, ?_, ?_⟩
  · rw [List.mem_dedup, ht.needed, List.mem_append, List.mem_map]
    constructor
    · rintro (h | ⟨r, hr, rfl⟩)
      · exact .inl h
      · exact .inr ⟨r.offset, hr⟩
    · rintro (h | ⟨i, hi⟩)
      · exact .inl h
      · exact .inr ⟨_, hi, rfl⟩
  · refine (List.subperm_of_subset ht.flat_nodup fun q hq => ?_).length_le
    rw [List.mem_dedup]
    exact List.mem_append_left _ hq
  · have h1 := (List.dedup_sublist (t.flat ++ t.refs.map (·.seq))).length_le
    have h2 := nodes_few ht.good
    simp only [List.length_append, List.length_map, if_true] at h1 h2
    omega

/-- Every block in use is needed by some lookup. -/
theorem missed_get {c : List Bytes} {H : Nat} {t : T} (ht : TreeAt c H t) {p : Nat}
    (hp : p ∈ t.flat ∨ ∃ i, ⟨p, i⟩ ∈ t.refs) :
    ∃ k, (get k ((St.open c).clear p)).1 = .error (.noBlockAtSeq p) := by
  have key : ∀ k, (get k (St.open c)).2.cache p ≠ none →
      (get k ((St.open c).clear p)).1 = .error (.noBlockAtSeq p) := by
    intro k hk
    refine Lock.fails (lock_acts.toLooks.get_ k) ((lacks_looks p).get_ k) rfl (fun q => ?_) hk
    simp [St.clear, St.open, Io.good]
  have hw := open_wf c
  have hc := open_coh c (· ∈ t.refs)
  have touch := fun k => get_touches (s := St.open c) ht hw hc k
  rcases hp with hp | ⟨i, hi⟩
  · exact ⟨keyOf c p, key _ ((touch (keyOf c p)).2 p hp rfl).1⟩
  · obtain ⟨n, hn⟩ := ht.rep.refs_some _ hi
    by_cases hne : n.keys = []
    · by_cases hroot : (⟨p, i⟩ : Child) = t.ref
      · refine ⟨[], key _ ?_⟩
        have := (touch []).1
        rw [← hroot] at this
        exact this
      · exfalso
        obtain ⟨r, ks, ts⟩ := t
        cases ht.rep with
        | mk h0 hk =>
          simp only [T.refs, List.mem_cons] at hi
          rcases hi with rfl | hi
          · exact hroot rfl
          · obtain ⟨u, hu, hi⟩ := mem_refsL.mp hi
            have hg := ht.good
            cases H with
            | zero => rw [hg.1] at hu; cases hu
            | succ H =>
              have := filled (hk u hu) (hg.2.2 u hu) _ hi n hn
              rw [hne] at this
              simp at this
    · obtain ⟨q, hq⟩ := List.exists_mem_of_ne_nil _ hne
      have hqf := keys_flat ht.rep hi hn hq
      exact ⟨keyOf c q, key _ (((touch (keyOf c q)).2 q hqf rfl).2 _ hi n hn hq)⟩

end Hyperbee
