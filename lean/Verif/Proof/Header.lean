import Verif.Proof.Compose
import Verif.Proof.STree
/-!
# The header block does not matter

No operation makes sense of block 0: reading it as a node fails in the same way whatever the
metadata.  So replacing one header by another changes nothing else.
-/

namespace Hyperbee

/-- The core begins with a header. -/
def Headed (s : St) : Prop := ∃ md, s.core[0]? = some (encodeHeader ⟨PROTOCOL, md⟩)

/-- The same state with another header. -/
def reheader (md : Option Metadata) (s : St) : St := { s with core := s.core.set 0 (encodeHeader ⟨PROTOCOL, md⟩) }

/-- The computation does not notice the header's metadata. -/
def Blind (md : Option Metadata) (α : Type) (m : M α) : Prop :=
  ∀ s, Headed s → m (reheader md s) = ((m s).1, reheader md (m s).2) ∧ Headed (m s).2

theorem decode_header (md : Option Metadata) :
    ∃ x, decodeNode (encodeHeader ⟨PROTOCOL, md⟩) = some x ∧ decodeYolo x.index = none := by
  have hy : decodeYolo PROTOCOL = none := by decide
  have hw := wireBlock_header md
  unfold wireBlock at hw
  simp only [List.getElem?_cons_zero] at hw
  cases hd : decodeNode (encodeHeader ⟨PROTOCOL, md⟩) with
  | none =>
    exfalso
    unfold decodeNode encodeHeader encodeOptLen at hd
    cases md with
    | none =>
      have := (FieldsOf.nil.cons 1 (by decide) PROTOCOL).decode
      simp only [List.append_nil] at this
      simp [this, mergeNode] at hd
    | some md =>
      have := ((FieldsOf.nil.cons 2 (by decide) (encodeMetadata md)).cons 1 (by decide) PROTOCOL).decode
      simp only [List.append_nil] at this
      simp [this, mergeNode] at hd
  | some x =>
    refine ⟨x, rfl, ?_⟩
    rw [hd] at hw
    simp only at hw
    cases hx : decodeYolo x.index with
    | none => rfl
    | some ls => rw [hx] at hw; cases hw

theorem getFromCore_header {s : St} (h : Headed s) :
    getFromCore 0 s = (if s.io.readable 0 then (.error .decode, s) else (.ok none, s)) := by
  obtain ⟨md, hm⟩ := h
  obtain ⟨x, h1, h2⟩ := decode_header md
  unfold getFromCore
  by_cases hr : s.io.readable 0 = true
  · rw [bind_ok (show coreGet 0 s = (.ok (some (encodeHeader ⟨PROTOCOL, md⟩)), s) by simp [coreGet, hr, hm]), if_pos hr]
    simp only [h1, blockEntryNew, makeNodeVec, h2]
    rfl
  · rw [bind_ok (show coreGet 0 s = (.ok none, s) by simp [coreGet, hr]), if_neg hr]
    rfl

theorem headed_reheader {s : St} (h : Headed s) (md : Option Metadata) : Headed (reheader md s) := by
  obtain ⟨m, hm⟩ := h
  refine ⟨md, ?_⟩
  have : 0 < s.core.length := (List.getElem?_eq_some_iff.mp hm).1
  simp [reheader, this]

theorem reheader_length (md : Option Metadata) (s : St) : (reheader md s).core.length = s.core.length := by
  simp [reheader]

theorem reheader_get (md : Option Metadata) (s : St) {q : Nat} (h : q ≠ 0) : (reheader md s).core[q]? = s.core[q]? := by
  unfold reheader
  simp only []
  rw [List.getElem?_set_ne (by omega)]

theorem nodeCount_header (md : Option Metadata) : nodeCount (encodeHeader ⟨PROTOCOL, md⟩) = 0 := by
  obtain ⟨x, h1, h2⟩ := decode_header md
  simp [nodeCount, h1, h2]

theorem stepBound_headed {s : St} (h : Headed s) :
    stepBound s.core = s.core.length + ((s.core.drop 1).map List.length).sum + 1 := by
  obtain ⟨m, hm⟩ := h
  cases hc : s.core with
  | nil => rw [hc] at hm; cases hm
  | cons b bs =>
    rw [hc] at hm
    simp only [List.getElem?_cons_zero, Option.some.injEq] at hm
    subst hm
    simp [stepBound, nodeCount_header]

theorem Blind.bind {md : Option Metadata} {m : M α} {f : α → M β} (h : Blind md α m) (hf : ∀ a, Blind md β (f a)) :
    Blind md β (m >>= f) := by
  intro s hs
  obtain ⟨h1, h2⟩ := h s hs
  rw [bind_run, bind_run, h1]
  cases hm : m s with
  | mk r s' =>
    rw [hm] at h2
    cases r with
    | error e => exact ⟨rfl, h2⟩
    | ok a => exact hf a s' h2

theorem Blind.allocLevels (md : Option Metadata) : ∀ ls, Blind md _ (Hyperbee.allocLevels ls) := by
  intro ls
  induction ls with
  | nil => intro s hs; exact ⟨rfl, hs⟩
  | cons l ls ih =>
    unfold Hyperbee.allocLevels
    refine Blind.bind ?_ fun n => Blind.bind (fun s hs => ⟨rfl, hs⟩) fun a => Blind.bind ih fun as s hs => ⟨rfl, hs⟩
    cases levelToNode l <;> exact fun s hs => ⟨rfl, hs⟩

theorem Blind.getFromCore (md : Option Metadata) (q : Nat) : Blind md _ (Hyperbee.getFromCore q) := by
  by_cases h : q = 0
  · subst h
    intro s hs
    rw [getFromCore_header hs, getFromCore_header (headed_reheader hs md)]
    have : (reheader md s).io = s.io := rfl
    rw [this]
    split <;> exact ⟨rfl, hs⟩
  · unfold Hyperbee.getFromCore
    refine Blind.bind ?_ fun b => ?_
    · intro s hs
      refine ⟨?_, hs⟩
      unfold coreGet
      rw [reheader_get md s h]
      rfl
    · cases b with
      | none => exact fun s hs => ⟨rfl, hs⟩
      | some b =>
        simp only []
        cases decodeNode b with
        | none => exact fun s hs => ⟨rfl, hs⟩
        | some x =>
          simp only [blockEntryNew, makeNodeVec]
          refine Blind.bind (Blind.bind ?_ fun _ s hs => ⟨rfl, hs⟩) fun _ s hs => ⟨rfl, hs⟩
          cases decodeYolo x.index with
          | none => exact fun s hs => ⟨rfl, hs⟩
          | some ls => exact Blind.allocLevels md ls

theorem Blind.coreAppend (md : Option Metadata) (b : Bytes) : Blind md _ (Hyperbee.coreAppend b) := by
  intro s hs
  obtain ⟨m, hm⟩ := hs
  have hl : 0 < s.core.length := (List.getElem?_eq_some_iff.mp hm).1
  unfold Hyperbee.coreAppend
  rw [show (reheader md s).io = s.io from rfl, reheader_length]
  split
  · refine ⟨?_, m, ?_⟩
    · simp only [reheader, Prod.mk.injEq, true_and]
      rw [List.set_append_left _ _ hl]
    · simp only []
      rw [List.getElem?_append_left hl]
      exact hm
  · exact ⟨rfl, m, hm⟩

theorem createHeader_headed {s : St} (h : Headed s) (m : Option Metadata) :
    createHeader m s = (.error .headerAlreadyExists, s) := by
  obtain ⟨md, hm⟩ := h
  have hl : 0 < s.core.length := (List.getElem?_eq_some_iff.mp hm).1
  unfold createHeader
  rw [bind_ok (version_run s), if_pos (by omega)]
  rfl

theorem blind_acts (md : Option Metadata) : Acts (Blind md) where
  pure := fun _ _ hs => ⟨rfl, hs⟩
  throw := fun _ _ hs => ⟨rfl, hs⟩
  bind := fun h hf => Blind.bind h hf
  readNode := by
    intro a s hs
    unfold Hyperbee.readNode
    rw [show (reheader md s).heap = s.heap from rfl]
    cases s.heap[a]? <;> exact ⟨rfl, hs⟩
  version := fun s hs => ⟨by unfold Hyperbee.version; rw [reheader_length], hs⟩
  descentFuel := fun s hs => ⟨by
    have : (reheader md s).core.drop 1 = s.core.drop 1 := by
      simp only [reheader]
      rw [List.drop_set]
      simp
    unfold Hyperbee.descentFuel
    rw [stepBound_headed hs, stepBound_headed (headed_reheader hs md), reheader_length, this], hs⟩
  blocksGet := by
    intro q
    unfold Hyperbee.blocksGet
    refine Blind.bind (fun s hs => ⟨rfl, hs⟩) fun o => ?_
    cases o with
    | some e => exact fun s hs => ⟨rfl, hs⟩
    | none =>
      refine Blind.bind (Blind.getFromCore md q) fun o => ?_
      cases o with
      | none => exact fun s hs => ⟨rfl, hs⟩
      | some e => exact Blind.bind (fun s hs => ⟨rfl, hs⟩) fun _ s hs => ⟨rfl, hs⟩
  writeNode := fun _ _ _ hs => ⟨rfl, hs⟩
  alloc := fun _ _ hs => ⟨rfl, hs⟩
  coreAppend := Blind.coreAppend md
  ensureHeader := by
    intro s hs
    unfold Hyperbee.ensureHeader
    rw [createHeader_headed hs, createHeader_headed (headed_reheader hs md)]
    exact ⟨rfl, hs⟩

theorem blind_reads (md : Option Metadata) : Reads (Blind md) where
  toLooks := (blind_acts md).toLooks
  tryResult := by
    intro α m h s hs
    obtain ⟨h1, h2⟩ := h s hs
    unfold Hyperbee.tryResult
    rw [h1]
    cases hm : m s with
    | mk r s' =>
      rw [hm] at h2
      cases r with
      | ok a => exact ⟨rfl, h2⟩
      | error e => cases e <;> exact ⟨rfl, h2⟩

theorem replyOf_blind {md : Option Metadata} {m : M α} (h : Blind md α m) (f : α → Reply) {s : St} (hs : Headed s) :
    replyOf m f (reheader md s) = ((replyOf m f s).1, reheader md (replyOf m f s).2) ∧ Headed (replyOf m f s).2 := by
  obtain ⟨h1, h2⟩ := h s hs
  unfold replyOf
  rw [h1]
  cases hm : m s with
  | mk r s' =>
    rw [hm] at h2
    cases r <;> exact ⟨rfl, h2⟩

/-- A call on a core with another header: the same reply, and the same state but for the header. -/
theorem exec_reheader (md : Option Metadata) (c : Cmd) {s : St} (hs : Headed s) :
    exec c (reheader md s) = ((exec c s).1, reheader md (exec c s).2) ∧ Headed (exec c s).2 := by
  have hc := blind_acts md
  cases c with
  | version => exact replyOf_blind hc.version _ hs
  | get k => exact replyOf_blind (hc.toLooks.get_ k) _ hs
  | put k v => exact replyOf_blind (hc.put_ k v) _ hs
  | putCas k v f => exact replyOf_blind (hc.putCAS_ k v f) _ hs
  | del k => exact replyOf_blind (hc.del_ k) _ hs
  | delCas k f => exact replyOf_blind (hc.delCAS_ k f) _ hs
  | createHeader m => exact replyOf_blind (hc.createHeader_ m) _ hs
  | traverse b sched => exact replyOf_blind ((blind_reads md).traverseSession_ b sched) _ hs
  | reopen => exact ⟨rfl, hs⟩

theorem run_reheader (md : Option Metadata) (cs : List Cmd) : ∀ {s : St}, Headed s →
    run cs (reheader md s) = ((run cs s).1, reheader md (run cs s).2) := by
  induction cs with
  | nil => intro s _; rfl
  | cons c cs ih =>
    intro s hs
    obtain ⟨h1, h2⟩ := exec_reheader md c hs
    simp only [run, h1, ih h2]

end Hyperbee
