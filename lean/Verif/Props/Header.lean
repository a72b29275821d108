import Verif.Proof.Header
import Verif.Props.Codec
/-!
# The header

Property C28.
-/

namespace Hyperbee

/-! ## C28 -/

/-- C28: on an empty core `create_header(m)` appends one block and nothing else, and that block reads
as the protocol name "hyperbee" and `m`.  The rest of the state is arbitrary. -/
theorem create_header_writes {s : St} (h0 : s.core = []) (hio : s.io.appendOk = true) (m : Option Metadata) :
    ∃ b, exec (.createHeader m) s = (.created 1, { s with core := [b] }) ∧
      (b.length < 2 ^ 64 → decodeHeader64 b = some ⟨"hyperbee".toList.map fun c => UInt8.ofNat c.toNat, m⟩) := by
  rw [show ("hyperbee".toList.map fun c => UInt8.ofNat c.toNat) = PROTOCOL from by decide]
  refine ⟨encodeHeader ⟨PROTOCOL, m⟩, ?_, header_roundtrip _ (show validUtf8 PROTOCOL = true by decide)⟩
  simp only [exec, replyOf, createHeader]
  rw [bind_ok (version_run s), if_neg (by simp [h0])]
  simp [coreAppend, hio, h0]

/-- With everything in the metadata. -/
example : (exec (.createHeader (some ⟨some [1, 2], some []⟩)) St.init).1 = .created 1 ∧
    (exec (.createHeader (some ⟨some [1, 2], some []⟩)) St.init).2.core.map decodeHeader64 =
      [some ⟨PROTOCOL, some ⟨some [1, 2], some []⟩⟩] := by decide +kernel

/-- C28: on any other core it fails and changes nothing. -/
theorem create_header_refused {s : St} (h : s.core ≠ []) (m : Option Metadata) :
    exec (.createHeader m) s = (.error .headerAlreadyExists, s) := by
  have hl : s.core.length ≠ 0 := by rw [Ne, List.length_eq_zero_iff]; exact h
  simp only [exec, replyOf, createHeader]
  rw [bind_ok (version_run s), if_pos hl]
  rfl

example : (exec (.createHeader (some ⟨none, some [3]⟩)) (runSt demo St.init)).1 = .error .headerAlreadyExists := by
  decide +kernel

theorem getRoot_true_empty {s : St} (h0 : s.core = []) (hio : s.io.appendOk = true) :
    getRoot true s = (.ok none, (exec (.createHeader none) s).2) ∧
    getRoot true (exec (.createHeader none) s).2 = (.ok none, (exec (.createHeader none) s).2) := by
  have he : createHeader none s = (.ok 1, { s with core := [encodeHeader ⟨PROTOCOL, none⟩] }) := by
    unfold createHeader
    rw [bind_ok (version_run s), if_neg (by simp [h0])]
    simp [coreAppend, hio, h0]
  have h1 : (exec (.createHeader none) s).2 = { s with core := [encodeHeader ⟨PROTOCOL, none⟩] } := by
    simp only [exec, replyOf, he]
  rw [h1]
  constructor
  · unfold getRoot
    rw [bind_ok (version_run s), if_pos (by simp [h0]), if_pos (by simp [h0])]
    rw [bind_ok (show ensureHeader s = (.ok true, _) by unfold ensureHeader; rw [he])]
    rfl
  · unfold getRoot
    rw [bind_ok (version_run _), if_pos (by simp), if_neg (by simp)]
    rfl

/-- C28: a put on an empty core does what it would do after `create_header(None)`: the header without
metadata comes first. -/
theorem first_put_header {s : St} (h0 : s.core = []) (hio : s.io.appendOk = true) (k : Bytes) (v : Option Bytes)
    (cas : Option KeyValueData → KeyValueData → Bool) :
    exec (.put k v) s = exec (.put k v) (exec (.createHeader none) s).2 ∧
    exec (.putCas k v cas) s = exec (.putCas k v cas) (exec (.createHeader none) s).2 := by
  obtain ⟨h1, h2⟩ := getRoot_true_empty h0 hio
  have hp : ∀ f : Option KeyValueData → KeyValueData → Bool,
      putCompareAndSwap k v f s = putCompareAndSwap k v f (exec (.createHeader none) s).2 := by
    intro f
    simp only [putCompareAndSwap, putPrepare, bind_run, h1, h2]
  constructor
  · rw [exec, exec]
    simp only [replyOf, put, bind_run, hp]
  · rw [exec.eq_4, exec.eq_4]
    simp only [replyOf, hp]

/-- The two blocks of a first put. -/
example : (exec (.put [7] none) St.init).2.core.length = 2 ∧
    (exec (.put [7] none) St.init).2.core[0]?.bind decodeHeader64 = some ⟨PROTOCOL, none⟩ := by decide +kernel

/-- C28: the metadata has no influence.  Any history after `create_header(m)` has the same replies
and writes the same blocks as after `create_header(m')`; only block 0 differs. -/
theorem header_irrelevant (m m' : Option Metadata) (cs : List Cmd) :
    let a := run cs (exec (.createHeader m) St.init).2
    let b := run cs (exec (.createHeader m') St.init).2
    a.1 = b.1 ∧ a.2.core.tail = b.2.core.tail ∧
      a.2.core.head? = some (encodeHeader ⟨PROTOCOL, m⟩) ∧ b.2.core.head? = some (encodeHeader ⟨PROTOCOL, m'⟩) := by
  have hinit : ∀ m, (exec (.createHeader m) St.init).2 = { St.init with core := [encodeHeader ⟨PROTOCOL, m⟩] } := fun _ => rfl
  have hh : Headed (exec (.createHeader m) St.init).2 := ⟨m, rfl⟩
  have hr : ∀ m'', (exec (.createHeader m'') St.init).2 = reheader m'' (exec (.createHeader m) St.init).2 := fun _ => rfl
  have key : ∀ m'', (run cs (exec (.createHeader m'') St.init).2).1 = (run cs (exec (.createHeader m) St.init).2).1 ∧
      (run cs (exec (.createHeader m'') St.init).2).2.core.tail = (run cs (exec (.createHeader m) St.init).2).2.core.tail ∧
      (run cs (exec (.createHeader m'') St.init).2).2.core.head? = some (encodeHeader ⟨PROTOCOL, m''⟩) := by
    intro m''
    have e := run_reheader m'' cs hh
    rw [← hr] at e
    obtain ⟨new, hn⟩ := run_appends cs (exec (.createHeader m) St.init).2
    have hcore : (run cs (exec (.createHeader m) St.init).2).2.core = encodeHeader ⟨PROTOCOL, m⟩ :: new := hn.symm
    rw [e]
    refine ⟨rfl, ?_, ?_⟩
    · simp only [reheader, hcore, List.set_cons_zero, List.tail_cons]
    · simp only [reheader, hcore, List.set_cons_zero, List.head?_cons]
  exact ⟨(key m').1.symm, (key m').2.1.symm, (key m).2.2, (key m').2.2⟩

/-- Two databases with different headers, after the demo history. -/
example : (run demo (exec (.createHeader (some ⟨some [1], none⟩)) St.init).2).2.core.length = (runSt demo St.init).core.length ∧
    (run demo (exec (.createHeader (some ⟨some [1], none⟩)) St.init).2).2.core ≠
      (run demo (exec (.createHeader none) St.init).2).2.core := by decide +kernel

end Hyperbee
