import Verif.Proof.Compose
import Verif.Proof.Prefix
import Verif.SpecTree
/-!
# Handles that only read

`Clean`: what such a handle has in memory is what the blocks of its core say, whatever the core
holds and whichever blocks can be read.
-/

namespace Hyperbee

/-- Loading levels some of which cannot be converted. -/
theorem allocLevels_bad {ls : List Level} (h : levelsToNodes ls = none) : ∀ s : St,
    ∃ xs, allocLevels ls s = (.error (.panic "blocks.rs:188 level.children[i + 1]"), { s with heap := s.heap ++ xs }) := by
  induction ls with
  | nil => simp [levelsToNodes] at h
  | cons l ls ih =>
    intro s
    unfold levelsToNodes at h
    unfold allocLevels
    cases h1 : levelToNode l with
    | none =>
      refine ⟨[], ?_⟩
      rw [bind_run, show orPanic "blocks.rs:188 level.children[i + 1]" (none : Option Node) s =
        (.error (.panic "blocks.rs:188 level.children[i + 1]"), s) from rfl]
      simp
    | some n =>
      cases h2 : levelsToNodes ls with
      | some ns' => simp [h1, h2] at h
      | none =>
        simp only [orPanic_some, pure_bind_run]
        rw [bind_ok (alloc_run _ _), bind_run]
        obtain ⟨xs, hx⟩ := ih h2 { s with heap := s.heap ++ [n] }
        rw [hx]
        exact ⟨n :: xs, by simp⟩

/-- Reading a block that is there but is not a block of ours. -/
theorem getFromCore_bad {s : St} {q : Nat} {x : Bytes} (hr : s.io.readable q = true) (hx : s.core[q]? = some x)
    (hb : blockOf x = none) : ∃ e xs, getFromCore q s = (.error e, { s with heap := s.heap ++ xs }) ∧
      (e = .decode ∧ xs = [] ∨ e = .panic "blocks.rs:188 level.children[i + 1]" ∧ (wireBlock s.core q).isSome) := by
  have hg : coreGet q s = (.ok (some x), s) := by simp [coreGet, hr, hx]
  unfold getFromCore
  rw [bind_ok hg]
  unfold blockOf at hb
  cases h1 : decodeNode x with
  | none => exact ⟨.decode, [], by simp [h1, Hyperbee.throw], .inl ⟨rfl, rfl⟩⟩
  | some m =>
    simp only [h1] at hb
    cases h2 : decodeYolo m.index with
    | none =>
      refine ⟨.decode, [], ?_, .inl ⟨rfl, rfl⟩⟩
      have hm : makeNodeVec m.index s = (.error .decode, s) := by unfold makeNodeVec; rw [h2]; rfl
      simp only [h1, blockEntryNew, bind_run, hm]
      simp
    | some ls =>
      simp only [h2] at hb
      cases h3 : levelsToNodes ls with
      | some ns => simp [h3] at hb
      | none =>
        obtain ⟨xs, hxs⟩ := allocLevels_bad h3 s
        refine ⟨_, xs, ?_, .inr ⟨rfl, by simp [wireBlock, hx, h1, h2]⟩⟩
        have hm : makeNodeVec m.index s = allocLevels ls s := by unfold makeNodeVec; rw [h2]
        simp only [h1, blockEntryNew, bind_run, hm, hxs]

/-- All that `Blocks::get` can do. -/
theorem blocksGet_cases (q : Nat) (s : St) :
    (∃ e, s.cache q = some e ∧ blocksGet q s = (.ok e, s)) ∨
    (s.cache q = none ∧ ((s.io.readable q = false ∨ s.core.length ≤ q) ∧ blocksGet q s = (.error (.noBlockAtSeq q), s) ∨
     s.io.readable q = true ∧
      ((∃ b, blockAt s.core q = some b ∧
        blocksGet q s = (.ok ⟨List.range' s.heap.length b.nodes.length, b.key, b.value⟩, loaded s q b)) ∨
       (q < s.core.length ∧ blockAt s.core q = none ∧ ∃ e xs, blocksGet q s = (.error e, { s with heap := s.heap ++ xs }) ∧
        (e = .decode ∧ xs = [] ∨ e = .panic "blocks.rs:188 level.children[i + 1]" ∧ (wireBlock s.core q).isSome))))) := by
  cases hq : s.cache q with
  | some e =>
    left
    have hg : getFromCache q s = (.ok (some e), s) := by simp [getFromCache, hq]
    refine ⟨e, rfl, ?_⟩
    unfold blocksGet
    rw [bind_ok hg]
    rfl
  | none =>
    right
    refine ⟨rfl, ?_⟩
    have hg : getFromCache q s = (.ok none, s) := by simp [getFromCache, hq]
    have miss : s.io.readable q = false ∨ s.core.length ≤ q → blocksGet q s = (.error (.noBlockAtSeq q), s) := by
      intro h
      have hcg : coreGet q s = (.ok none, s) := by
        rcases h with h | h
        · simp [coreGet, h]
        · simp only [coreGet]; rw [List.getElem?_eq_none h]; simp
      have hf : getFromCore q s = (.ok none, s) := by
        unfold getFromCore; rw [bind_ok hcg]; rfl
      unfold blocksGet
      rw [bind_ok hg]
      simp only []
      rw [bind_ok hf]
      rfl
    cases hr : s.io.readable q with
    | false => exact .inl ⟨.inl rfl, miss (.inl hr)⟩
    | true =>
      by_cases hl : s.core.length ≤ q
      · exact .inl ⟨.inr hl, miss (.inr hl)⟩
      · right
        refine ⟨rfl, ?_⟩
        cases hb : blockAt s.core q with
        | some b =>
          left
          refine ⟨b, rfl, ?_⟩
          unfold blocksGet
          rw [bind_ok hg]
          simp only []
          rw [bind_ok (getFromCore_run hr hb)]
          rfl
        | none =>
          right
          have hx : s.core[q]? = some s.core[q] := List.getElem?_eq_getElem (by omega)
          obtain ⟨e, xs, h1, h2⟩ := getFromCore_bad hr hx (by simpa [blockAt, hx] using hb)
          refine ⟨by omega, rfl, e, xs, ?_, h2⟩
          unfold blocksGet
          rw [bind_ok hg]
          simp only [bind_run, h1]

/-- The handle has in memory what the blocks of the core say. -/
structure Clean (s : St) : Prop where
  wf : SWF s.full
  coh : Coh s fun _ => True

/-- `s'` is `s` after reading. -/
structure Browsed (s s' : St) : Prop where
  core : s'.core = s.core
  io : s'.io = s.io
  clean : Clean s'

theorem Clean.sparse {s : St} (h : Clean s) : Sparse s := ⟨h.wf, fun _ _ _ => h.coh.mono fun _ _ => trivial⟩

/-- `m` only reads. -/
def Browses {α : Type} (m : M α) : Prop := ∀ s, Clean s → Browsed s (m s).2

theorem Clean.heap {s : St} (h : Clean s) (xs : List Node) : Clean { s with heap := s.heap ++ xs } := by
  refine ⟨⟨h.wf.rd, h.wf.ent, fun r a ha => ?_, h.wf.inj⟩, fun r _ a ha => ?_⟩
  · have := h.wf.lt r a ha
    simp only [St.full, List.length_append] at this ⊢
    omega
  · have hlt := h.wf.lt r a ha
    simp only [St.full] at hlt
    rw [show ({ s with heap := s.heap ++ xs } : St).heap = s.heap ++ xs from rfl, List.getElem?_append_left hlt]
    exact h.coh r trivial a ha

theorem Clean.loaded {s : St} (h : Clean s) {q : Nat} {b : Blk} (hq : s.cache q = none) (hb : blockAt s.core q = some b) :
    Clean (Hyperbee.loaded s q b) := by
  have e := ext_loaded (s := s.full) h.wf hq hb
  exact ⟨e.wf, fun r hr a ha => (e.coh h.wf h.coh) r hr a ha⟩

theorem browses_reads : Reads (fun _ m => Browses m) where
  pure _ := fun s h => ⟨rfl, rfl, h⟩
  throw _ := fun s h => ⟨rfl, rfl, h⟩
  bind {α β m f} hm hf := fun s h => by
    rw [bind_run]
    have h1 := hm s h
    cases hr : m s with
    | mk r s1 =>
      rw [hr] at h1
      cases r with
      | error e => exact h1
      | ok a =>
        have h2 := hf a s1 h1.clean
        exact ⟨h2.core.trans h1.core, h2.io.trans h1.io, h2.clean⟩
  tryResult {α m} hm := fun s h => by
    have h1 := hm s h
    unfold tryResult
    cases hr : m s with
    | mk r s1 =>
      rw [hr] at h1
      cases r with
      | ok a => exact h1
      | error e => cases e <;> exact h1
  readNode a := fun s h => by
    unfold readNode
    split <;> exact ⟨rfl, rfl, h⟩
  version := fun s h => ⟨rfl, rfl, h⟩
  descentFuel := fun s h => ⟨rfl, rfl, h⟩
  blocksGet q := fun s h => by
    rcases blocksGet_cases q s with ⟨e, _, h1⟩ | ⟨hq, ⟨_, h1⟩ | ⟨_, ⟨b, hb, h1⟩ | ⟨_, _, e, xs, h1, _⟩⟩⟩ <;> rw [h1]
    · exact ⟨rfl, rfl, h⟩
    · exact ⟨rfl, rfl, h⟩
    · exact ⟨rfl, rfl, h.loaded hq hb⟩
    · exact ⟨rfl, rfl, h.heap xs⟩

theorem Clean.open (c : List Bytes) (io : Io) : Clean { St.open c with io := io } :=
  ⟨⟨fun _ => rfl, (open_wf c).ent, (open_wf c).lt, (open_wf c).inj⟩, open_coh c _⟩

theorem Clean.hold {s : St} (h : Clean s) (io : Io) : Clean { s with io := io } :=
  ⟨⟨fun _ => rfl, h.wf.ent, h.wf.lt, h.wf.inj⟩, h.coh⟩

/-- The core has grown. -/
theorem Clean.grow {s : St} (h : Clean s) (xs : List Bytes) : Clean { s with core := s.core ++ xs } := by
  refine ⟨⟨h.wf.rd, fun q e he => ?_, h.wf.lt, h.wf.inj⟩, fun r hr a ha => ?_⟩
  · obtain ⟨b, hb, hx⟩ := h.wf.ent q e he
    exact ⟨b, blockAt_append_some hb xs, hx⟩
  · have hq : r.seq < s.core.length := by
      have ha' : addrOf s r = some a := ha
      unfold addrOf at ha'
      cases he : s.cache r.seq with
      | none => simp [he] at ha'
      | some e =>
        obtain ⟨b, hb, _⟩ := h.wf.ent _ e he
        exact blockAt_lt hb
    rw [show ({ s with core := s.core ++ xs } : St).core = s.core ++ xs from rfl, nodeAt_append hq]
    exact h.coh r hr a ha

theorem Clean.exec_get {s : St} (h : Clean s) (k : Bytes) : Browsed s (exec (.get k) s).2 := by
  have := browses_reads.get_ k s h
  simp only [exec, replyOf]
  cases hg : get k s with
  | mk r s' => rw [hg] at this; cases r <;> exact this

theorem Clean.exec_traverse {s : St} (h : Clean s) (b : TraverseConfigBuilder) (sched : List Bool) :
    Browsed s (exec (.traverse b sched) s).2 := by
  have := browses_reads.traverseSession_ b sched s h
  simp only [exec, replyOf]
  cases hg : traverseSession b sched s with
  | mk r s' => rw [hg] at this; cases r <;> exact this

end Hyperbee
