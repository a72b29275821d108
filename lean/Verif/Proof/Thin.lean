import Verif.Proof.Compose
import Verif.Proof.Cost
/-!
# The blocks a call fetches suffice for it

`Spares` (Proof/Cost.lean) for streams, which report errors and go on, and for writes.
-/

namespace Hyperbee

/-- A core with all blocks at hand: with only the blocks that do not decode and those `m` ends up
having in the cache, `m` does the same, also if it fails. -/
structure Thin {α : Type} (m : M α) : Prop where
  grows : ∀ s q, s.cache q ≠ none → (m s).2.cache q ≠ none
  core : ∀ s, (m s).2.core = s.core
  io : ∀ s, (m s).2.io = s.io
  same : ∀ s io, (∀ q, s.io.readable q = true) →
    (∀ q, q < s.core.length → blockAt s.core q = none → io.readable q = true) →
    (∀ q, (m s).2.cache q ≠ none → s.cache q ≠ none ∨ io.readable q = true) →
    m { s with io := io } = ((m s).1, { (m s).2 with io := io })

theorem Thin.still {α : Type} {m : M α} (r : St → Except Err α) (h : ∀ s, m s = (r s, s))
    (hr : ∀ s io, r { s with io := io } = r s) : Thin m :=
  ⟨fun s q hq => by rw [h]; exact hq, fun s => by rw [h], fun s => by rw [h],
    fun s io _ _ _ => by rw [h, h, hr]⟩

/-- `m` does not look at the storage. -/
def NoIo {α : Type} (m : M α) : Prop := ∀ s io, m { s with io := io } = ((m s).1, { (m s).2 with io := io })

theorem NoIo.bind {α β : Type} {m : M α} {f : α → M β} (hm : NoIo m) (hf : ∀ a, NoIo (f a)) : NoIo (m >>= f) := by
  intro s io
  rw [bind_run, bind_run, hm s io]
  cases m s with
  | mk r s1 =>
    cases r with
    | error e => rfl
    | ok a => exact hf a s1 io

theorem NoIo.pure {α : Type} (a : α) : NoIo (Pure.pure a : M α) := fun _ _ => rfl

theorem blind_allocLevels : ∀ ls, NoIo (allocLevels ls)
  | [] => NoIo.pure _
  | l :: ls => by
    unfold allocLevels
    refine NoIo.bind (fun s io => ?_) fun n => NoIo.bind (fun _ _ => rfl) fun a =>
      (blind_allocLevels ls).bind fun as => NoIo.pure _
    cases levelToNode l <;> rfl

/-- Without the block in the cache, and with it in the storage, `Blocks::get` decodes it. -/
theorem blocksGet_readable {q : Nat} {s : St} (hc : s.cache q = none) (hr : s.io.readable q = true) (io : Io)
    (hr' : io.readable q = true) :
    blocksGet q { s with io := io } = ((blocksGet q s).1, { (blocksGet q s).2 with io := io }) := by
  have h1 : ∀ s : St, s.cache q = none → getFromCache q s = (.ok none, s) := fun s h => by unfold getFromCache; rw [h]
  have h2 : ∀ s : St, s.io.readable q = true → coreGet q s = (.ok s.core[q]?, s) := fun s h => by
    unfold coreGet; rw [h]; rfl
  have hcore : getFromCore q { s with io := io } = ((getFromCore q s).1, { (getFromCore q s).2 with io := io }) := by
    unfold getFromCore
    rw [bind_ok (h2 s hr), bind_ok (h2 { s with io := io } hr')]
    have hb : NoIo (match s.core[q]? with
        | some coreBlock =>
          match decodeNode coreBlock with
          | none => throw .decode
          | some node => do
            let e ← blockEntryNew node
            Pure.pure (some e)
        | none => Pure.pure none : M (Option BlockEntry)) := by
      split
      · split
        · exact fun _ _ => rfl
        · refine NoIo.bind ?_ fun _ => NoIo.pure _
          unfold blockEntryNew
          refine NoIo.bind ?_ fun _ => NoIo.pure _
          unfold makeNodeVec
          split
          · exact fun _ _ => rfl
          · exact blind_allocLevels _
      · exact NoIo.pure _
    exact hb s io
  unfold blocksGet
  rw [bind_ok (h1 s hc), bind_ok (h1 { s with io := io } hc)]
  simp only []
  rw [bind_run, bind_run, hcore]
  cases getFromCore q s with
  | mk r s1 =>
    rcases r with e | o
    · rfl
    · cases o <;> rfl

theorem thin_reads : Reads (fun _ m => Thin m) where
  pure a := Thin.still (fun _ => .ok a) (fun _ => rfl) fun _ _ => rfl
  throw e := Thin.still (fun _ => .error e) (fun _ => rfl) fun _ _ => rfl
  version := Thin.still (fun s => .ok s.core.length) (fun _ => rfl) fun _ _ => rfl
  descentFuel := Thin.still (fun s => (descentFuel s).1) (fun _ => rfl) fun _ _ => rfl
  readNode a := Thin.still (fun s => (readNode a s).1) (fun s => by unfold readNode; split <;> rfl)
    fun s io => by
      unfold readNode
      cases s.heap[a]? <;> simp only
  bind {α β m f} hm hf := by
    have key : ∀ s, ((m >>= f) s) = match m s with
        | (.ok a, s1) => f a s1
        | (.error e, s1) => (.error e, s1) := fun s => rfl
    refine ⟨fun s q h => ?_, fun s => ?_, fun s => ?_, fun s io h1 h2 h3 => ?_⟩
    · rw [key]
      have g := hm.grows s q h
      cases hr : m s with
      | mk r s1 =>
        rw [hr] at g
        cases r with
        | error e => exact g
        | ok a => exact (hf a).grows s1 q g
    · rw [key]
      have g := hm.core s
      cases hr : m s with
      | mk r s1 =>
        rw [hr] at g
        cases r with
        | error e => exact g
        | ok a => exact ((hf a).core s1).trans g
    · rw [key]
      have g := hm.io s
      cases hr : m s with
      | mk r s1 =>
        rw [hr] at g
        cases r with
        | error e => exact g
        | ok a => exact ((hf a).io s1).trans g
    · rw [key] at h3
      rw [key, key]
      have gc := hm.core s
      have gi := hm.io s
      have gg := hm.grows s
      have gs := hm.same s io h1 h2
      cases hr : m s with
      | mk r s1 =>
        rw [hr] at gc gi gg gs h3
        cases r with
        | error e => rw [gs h3]
        | ok a =>
          rw [gs fun q hq => h3 q ((hf a).grows s1 q hq)]
          simp only
          refine (hf a).same s1 io (by rw [gi]; exact h1) (by rw [gc]; exact h2) fun q hq => ?_
          exact (h3 q hq).imp (gg q) id
  blocksGet q := by
    refine ⟨fun s q' h => ?_, fun s => ?_, fun s => ?_, fun s io h1 h2 h3 => ?_⟩
    · rcases blocksGet_cases q s with ⟨e, _, h1⟩ | ⟨_, ⟨_, h1⟩ | ⟨_, ⟨b, _, h1⟩ | ⟨_, _, e, xs, h1, _⟩⟩⟩ <;> rw [h1]
      · exact h
      · exact h
      · simp only [loaded, cacheInsert]
        split
        · simp
        · exact h
      · exact h
    · rcases blocksGet_cases q s with ⟨e, _, h1⟩ | ⟨_, ⟨_, h1⟩ | ⟨_, ⟨b, _, h1⟩ | ⟨_, _, e, xs, h1, _⟩⟩⟩ <;> rw [h1] <;> rfl
    · rcases blocksGet_cases q s with ⟨e, _, h1⟩ | ⟨_, ⟨_, h1⟩ | ⟨_, ⟨b, _, h1⟩ | ⟨_, _, e, xs, h1, _⟩⟩⟩ <;> rw [h1] <;> rfl
    · by_cases hr : s.cache q = none ∧ io.readable q = false
      · -- the block was not fetched: there is none
        obtain ⟨hc, hr⟩ := hr
        rcases blocksGet_cases q s with ⟨e, he, h⟩ | ⟨_, ⟨hx, h⟩ | ⟨_, ⟨b, hb, h⟩ | ⟨hx, hb, e, xs, h, _⟩⟩⟩
        · rw [hc] at he; cases he
        · have hx : s.core.length ≤ q := hx.resolve_left (by rw [h1 q]; simp)
          rw [h]
          rcases blocksGet_cases q { s with io := io } with ⟨e, he, h'⟩ | ⟨_, ⟨_, h'⟩ | ⟨hy, _⟩⟩
          · rw [show ({ s with io := io } : St).cache q = s.cache q from rfl, hc] at he; cases he
          · rw [h']
          · rw [show ({ s with io := io } : St).io.readable q = io.readable q from rfl, hr] at hy; cases hy
        · rw [h] at h3
          rcases h3 q (by simp [loaded, cacheInsert]) with h' | h'
          · exact absurd hc h'
          · rw [hr] at h'; cases h'
        · have := h2 q hx hb
          rw [hr] at this; cases this
      · cases hc : s.cache q with
        | some e =>
          have g : ∀ s' : St, s'.cache q = some e → blocksGet q s' = (.ok e, s') := by
            intro s' h'
            rcases blocksGet_cases q s' with ⟨e', he, h⟩ | ⟨h, _⟩
            · rw [h'] at he; cases he; exact h
            · rw [h'] at h; cases h
          rw [g s hc, g { s with io := io } hc]
        | none =>
          have hr' : io.readable q = true := by
            cases h : io.readable q with
            | true => rfl
            | false => exact absurd ⟨hc, h⟩ hr
          exact blocksGet_readable hc (h1 q) io hr'
  tryResult {α m} hm := by
    have key : ∀ s, (tryResult m s).2 = (m s).2 := by
      intro s
      unfold tryResult
      split <;> rename_i h <;> rw [h]
    refine ⟨fun s q h => by rw [key]; exact hm.grows s q h, fun s => by rw [key]; exact hm.core s,
      fun s => by rw [key]; exact hm.io s, fun s io h1 h2 h3 => ?_⟩
    rw [key] at h3
    have h := hm.same s io h1 h2 h3
    unfold tryResult
    rw [h]
    cases hr : m s with
    | mk r s1 =>
      rcases r with e | a
      · cases e <;> rfl
      · rfl

/-- As `Spares`, for writes. -/
structure Spends {α : Type} (m : M α) : Prop where
  grows : ∀ s q, s.cache q ≠ none → (m s).2.cache q ≠ none
  io : ∀ s, (m s).2.io = s.io
  same : ∀ s a t io, m s = (.ok a, t) → io.appendOk = s.io.appendOk →
    (∀ q, t.cache q ≠ none → s.cache q ≠ none ∨ io.readable q = true) →
    m { s with io := io } = (.ok a, { t with io := io })

theorem Spends.of {α : Type} {m : M α} (h : Spares m) (hio : ∀ s, (m s).2.io = s.io) : Spends m :=
  ⟨h.grows, hio, fun s a t io h1 _ h2 => h.same s a t io h1 h2⟩

theorem spends_acts : Acts (fun _ m => Spends m) where
  pure a := .of (spares_looks.pure a) fun _ => rfl
  throw e := .of (spares_looks.throw e) fun _ => rfl
  version := .of spares_looks.version fun _ => rfl
  descentFuel := .of spares_looks.descentFuel fun _ => rfl
  readNode a := .of (spares_looks.readNode a) (thin_reads.readNode a).io
  blocksGet q := .of (spares_looks.blocksGet q) (thin_reads.blocksGet q).io
  bind {α β m f} hm hf := by
    have key : ∀ s, ((m >>= f) s) = match m s with
        | (.ok a, s1) => f a s1
        | (.error e, s1) => (.error e, s1) := fun s => rfl
    refine ⟨fun s q h => ?_, fun s => ?_, fun s a t io h hio hr => ?_⟩
    · rw [key]
      have h1 := hm.grows s q h
      cases hr : m s with
      | mk r s1 =>
        rw [hr] at h1
        cases r with
        | error e => exact h1
        | ok a => exact (hf a).grows s1 q h1
    · rw [key]
      have g := hm.io s
      cases hr : m s with
      | mk r s1 =>
        rw [hr] at g
        cases r with
        | error e => exact g
        | ok a => exact ((hf a).io s1).trans g
    · rw [key] at h
      have gi := hm.io s
      cases hm1 : m s with
      | mk r s1 =>
        rw [hm1] at h gi
        cases r with
        | error e => cases h
        | ok b =>
          simp only at h
          have g1 := hm.grows s
          rw [hm1] at g1
          have g2 := (hf b).grows s1
          rw [h] at g2
          rw [bind_ok (hm.same s b s1 io hm1 hio fun q hq => hr q (g2 q hq))]
          exact (hf b).same s1 a t io h (by rw [gi]; exact hio) fun q hq => (hr q hq).imp (g1 q) id
  writeNode a n := ⟨fun s q h => h, fun s => rfl, fun s _ t io h _ _ => by cases h; rfl⟩
  alloc n := ⟨fun s q h => h, fun s => rfl, fun s _ t io h _ _ => by cases h; rfl⟩
  coreAppend b := by
    refine ⟨fun s q h => ?_, fun s => ?_, fun s a t io h hio _ => ?_⟩
    · unfold coreAppend; split <;> exact h
    · unfold coreAppend; split <;> rfl
    · unfold coreAppend at h ⊢
      rw [show ({ s with io := io } : St).io.appendOk = s.io.appendOk from hio]
      split at h
      · cases h; rw [if_pos (by assumption)]
      · cases h
  ensureHeader := by
    have ha : ∀ s io, io.appendOk = s.io.appendOk →
        createHeader none { s with io := io } = ((createHeader none s).1, { (createHeader none s).2 with io := io }) := by
      intro s io h
      unfold createHeader
      rw [bind_ok (version_run _), bind_ok (version_run s)]
      split
      · rfl
      · unfold coreAppend
        rw [show ({ s with io := io } : St).io.appendOk = s.io.appendOk from h]
        split <;> rfl
    have hk : ∀ s, (createHeader none s).2.cache = s.cache ∧ (createHeader none s).2.io = s.io := by
      intro s
      unfold createHeader
      rw [bind_ok (version_run s)]
      split
      · exact ⟨rfl, rfl⟩
      · unfold coreAppend; split <;> exact ⟨rfl, rfl⟩
    have he : ∀ s, (ensureHeader s).2 = (createHeader none s).2 := by
      intro s
      unfold ensureHeader
      split <;> rename_i h <;> rw [h]
    refine ⟨fun s q h => by rw [he, (hk s).1]; exact h, fun s => by rw [he, (hk s).2], fun s a t io h hio _ => ?_⟩
    have h1 := ha s io hio
    unfold ensureHeader at h ⊢
    rw [h1]
    cases hr : createHeader none s with
    | mk r s1 =>
      rw [hr] at h
      rcases r with e | n
      · cases e <;> cases h <;> rfl
      · cases h; rfl

end Hyperbee
