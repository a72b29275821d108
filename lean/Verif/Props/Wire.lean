import Verif.Proof.Wire
import Verif.Proof.WireHeader
import Verif.Props.Header
import Verif.Props.Demo
/-!
# The bytes on disk

Properties C54 and C55: blocks are written in the format of src/schema.proto, byte for byte, and
blocks of every conforming writer are understood.
-/

namespace Hyperbee

open Wire

/-- The bytes of the protocol name. -/
abbrev hyperbeeName : Bytes := [0x68, 0x79, 0x70, 0x65, 0x72, 0x62, 0x65, 0x65]

example : hyperbeeName = "hyperbee".toList.map fun c => UInt8.ofNat c.toNat := by decide

/-! ## C54 -/

/-- C54: the format leaves no choice: the contents determine the bytes. -/
theorem format_unique {k : Bytes} {v : Option Bytes} {nodes : List (List Nat × List (Nat × Nat))} {b b' : Bytes}
    (h : CBlock k v nodes b) (h' : CBlock k v nodes b') : b = b' := h.unique h'

theorem format_header_unique {p : Bytes} {m : Option (Option Bytes × Option Bytes)} {b b' : Bytes}
    (h : CHeader p m b) (h' : CHeader p m b') : b = b' := h.unique h'

theorem Wire.unshape (nodes : List (List Nat × List (Nat × Nat))) :
    (nodes.map fun n => (⟨n.1, n.2.map fun c => ⟨c.1, c.2⟩⟩ : Node)).map shape = nodes := by
  rw [List.map_map]
  refine (List.map_congr_left (g := id) fun n _ => ?_).trans (List.map_id _)
  simp [shape, Function.comp_def]

theorem Wire.CBlock.eq {k : Bytes} {v : Option Bytes} {nodes : List (List Nat × List (Nat × Nat))} {b : Bytes}
    (h : CBlock k v nodes b) : b = encodeBlock k v (nodes.map fun n => (⟨n.1, n.2.map fun c => ⟨c.1, c.2⟩⟩ : Node)) := by
  refine h.unique ?_
  have := block_encode k v (nodes.map fun n => (⟨n.1, n.2.map fun c => ⟨c.1, c.2⟩⟩ : Node))
  rwa [unshape] at this

/-- C54: and the bytes determine the contents. -/
theorem format_injective {k k' : Bytes} {v v' : Option Bytes} {nodes nodes' : List (List Nat × List (Nat × Nat))} {b : Bytes}
    (h : CBlock k v nodes b) (h' : CBlock k' v' nodes' b) : k = k' ∧ v = v' ∧ nodes = nodes' := by
  have h1 := h.eq.symm.trans h'.eq
  obtain ⟨rfl, rfl, h2⟩ := encodeBlock_injective h1
  refine ⟨rfl, rfl, ?_⟩
  rw [← unshape nodes, h2, unshape]

theorem Wrote.format {c : List Bytes} {io : Io} {key : Bytes} {value : Option Bytes} {old : Child → Prop}
    {s' : St} {H : Nat} {t' : T} {flat : List Nat} {mx : Nat} (w : Wrote c io key value old s' H t' flat mx) :
    ∃ b nodes m, s'.core = c ++ [b] ∧ CBlock key value nodes b ∧ nodes ≠ [] ∧
      wireBlock s'.core c.length = some (m, nodes.map levelOf) := by
  obtain ⟨ns, h1, _, h3, _⟩ := w.core
  refine ⟨_, _, ⟨encodeYolo (ns.map toLevel), key, value⟩, h1, block_encode key value ns, ?_, ?_⟩
  · intro h
    rw [List.map_eq_nil_iff] at h
    subst h
    simp at h3
  · unfold wireBlock
    have : (ns.map shape).map levelOf = ns.map toLevel := by
      rw [List.map_map]
      exact List.map_congr_left fun n _ => (toLevel_eq n).symm
    rw [this, h1, List.getElem?_append_right (Nat.le_refl _), Nat.sub_self]
    simp only [List.getElem?_cons_zero, encodeBlock, decodeNode_encodeNode, decodeYolo_encodeYolo]

theorem protocol_bytes : PROTOCOL = hyperbeeName := by decide

theorem Step.format {s : St} {c : Cmd} {r : Reply} {s' : St} (h : Step s c r s') {w : Write} (he : effect c r = some w) :
    ∃ hdr b nodes m, s'.core = s.core ++ hdr ++ [b] ∧
      ((s.core ≠ [] ∧ hdr = []) ∨ (s.core = [] ∧ ∃ x, hdr = [x] ∧ CHeader hyperbeeName none x)) ∧
      CBlock w.stored.1 w.stored.2 nodes b ∧ nodes ≠ [] ∧
      wireBlock s'.core (s'.core.length - 1) = some (m, nodes.map levelOf) := by
  cases h with
  | same h e => rw [e] at he; cases he
  | header m h0 h e => rw [e] at he; cases he
  | first k v t' h1 e w =>
    rw [e] at he
    cases he
    obtain ⟨b, nodes, m, h2, h3, h4, h5⟩ := w.format
    have hl : s'.core.length - 1 = s.ready.core.length := by rw [h2]; simp
    rcases ready_core s with hr | ⟨h0, hr⟩
    · have := St.ready_len h1
      refine ⟨[], b, nodes, m, by rw [h2, hr]; simp, .inl ⟨?_, rfl⟩, h3, h4, by rw [hl]; exact h5⟩
      intro h0
      rw [hr, h0] at this
      simp at this
    · refine ⟨[headerBlock], b, nodes, m, by rw [h2, hr, h0]; rfl, .inr ⟨h0, _, rfl, ?_⟩, h3, h4, by rw [hl]; exact h5⟩
      rw [← protocol_bytes]
      exact header_encode PROTOCOL none
  | put k v H t H' t' m pre post ht e l w hH =>
    rw [e] at he
    cases he
    obtain ⟨b, nodes, m, h2, h3, h4, h5⟩ := w.format
    have := ht.two
    refine ⟨[], b, nodes, m, by rw [h2]; simp, .inl ⟨?_, rfl⟩, h3, h4, by rw [h2] at h5 ⊢; simpa using h5⟩
    intro h0
    rw [h0] at this
    simp at this
  | del k H t H' t' q pre post ht e l w hH =>
    rw [e] at he
    cases he
    obtain ⟨b, nodes, m, h2, h3, h4, h5⟩ := w.format
    have := ht.two
    refine ⟨[], b, nodes, m, by rw [h2]; simp, .inl ⟨?_, rfl⟩, h3, h4, by rw [h2] at h5 ⊢; simpa using h5⟩
    intro h0
    rw [h0] at this
    simp at this

/-- C54.  An effective write appends one block in the format, carrying its key, its value (a deletion:
none) and at least one node; before it, on an empty core only, the header without metadata.  The
nodes are those the tree of the new core is read from. -/
theorem write_format {s : St} (hs : Reachable s) {c : Cmd} {w : Write} (he : effect c (exec c s).1 = some w) :
    ∃ hdr b nodes m, (exec c s).2.core = s.core ++ hdr ++ [b] ∧
      ((s.core ≠ [] ∧ hdr = []) ∨ (s.core = [] ∧ ∃ x, hdr = [x] ∧ CHeader hyperbeeName none x)) ∧
      CBlock w.stored.1 w.stored.2 nodes b ∧ nodes ≠ [] ∧
      wireBlock (exec c s).2.core ((exec c s).2.core.length - 1) = some (m, nodes.map levelOf) := by
  obtain ⟨d, hd⟩ := hs.holds
  exact (exec_step hd c).format he

/-- The first put: header and block, byte for byte.  0A, 08, "hyperbee"; then the index 0A 05 0A 03
0A 01 01 (one node of one key, in block 1), the key 12 01 63 and the value 1A 02 07 08. -/
example : effect (.put [0x63] (some [7, 8])) (exec (.put [0x63] (some [7, 8])) St.init).1 = some (.set [0x63] (some [7, 8])) ∧
    (exec (.put [0x63] (some [7, 8])) St.init).2.core =
      [[0x0A, 0x08, 0x68, 0x79, 0x70, 0x65, 0x72, 0x62, 0x65, 0x65],
       [0x0A, 0x05, 0x0A, 0x03, 0x0A, 0x01, 0x01, 0x12, 0x01, 0x63, 0x1A, 0x02, 0x07, 0x08]] := by decide +kernel

/-- A split: the top with the key of block 5 and children (9, 1) and (9, 2), then the two halves. -/
example : (exec (.put (demoKey 8) none) (runSt (ascending.take 8) St.init)).2.core[9]? =
    some ([0x0A, 0x1B, 0x0A, 0x09, 0x0A, 0x01, 0x05, 0x12, 0x04, 0x09, 0x01, 0x09, 0x02,
      0x0A, 0x06, 0x0A, 0x04, 0x01, 0x02, 0x03, 0x04, 0x0A, 0x06, 0x0A, 0x04, 0x06, 0x07, 0x08, 0x09,
      0x12, UInt8.ofNat (demoKey 8).length] ++ demoKey 8) := by decide +kernel

/-- C54: `create_header` on an empty core writes the header in the format. -/
theorem create_header_format {s : St} (h0 : s.core = []) (hio : s.io.appendOk = true) (m : Option Metadata) :
    ∃ b, (exec (.createHeader m) s).2.core = [b] ∧
      CHeader hyperbeeName (m.map fun m => (m.contentFeed, m.userData)) b := by
  obtain ⟨b, h1, -⟩ := create_header_writes h0 hio m
  refine ⟨b, by rw [h1], ?_⟩
  rcases createHeader_core m s with ⟨-, -, h3⟩ | ⟨e, h3, -, h4⟩
  · have h5 : (exec (.createHeader m) s).2 = (createHeader m s).2 := (replyOf_reply _ _ s).2
    rw [h1] at h5
    rw [← h5] at h3
    simp only [List.cons.injEq, and_true] at h3
    rw [h3, ← protocol_bytes]
    exact header_encode PROTOCOL m
  · have h5 : (exec (.createHeader m) s).1 = .error e := by
      rw [show (exec (.createHeader m) s).1 = _ from (replyOf_reply _ _ s).1, h3]
    rw [h1] at h5
    cases h5

example : (exec (.createHeader (some ⟨some [1, 2], some []⟩)) St.init).2.core =
    [[0x0A, 0x08, 0x68, 0x79, 0x70, 0x65, 0x72, 0x62, 0x65, 0x65, 0x12, 0x06, 0x0A, 0x02, 1, 2, 0x12, 0]] := by
  decide +kernel

/-- C54: after any history block 0 is a header with the protocol name and every other block a block
in the format. -/
theorem core_format {s : St} (hs : Reachable s) {q : Nat} {b : Bytes} (hb : s.core[q]? = some b) :
    (q = 0 → ∃ m, CHeader hyperbeeName m b) ∧ (1 ≤ q → ∃ k v nodes, CBlock k v nodes b) := by
  have hlt : q < s.core.length := (List.getElem?_eq_some_iff.mp hb).1
  constructor
  · rintro rfl
    obtain ⟨s', ⟨cs, rfl⟩, hc⟩ := hs.take 1
    have hl : (runSt cs St.init).core.length = 1 := by rw [hc, List.length_take]; omega
    obtain ⟨m, hm⟩ := header_of_len cs hl
    refine ⟨m.map fun m => (m.contentFeed, m.userData), ?_⟩
    have : b = encodeHeader ⟨PROTOCOL, m⟩ := by
      have h1 : (s.core.take 1)[0]? = some b := by rw [List.getElem?_take_of_lt (by omega)]; exact hb
      rw [← hc, hm] at h1
      simpa using h1.symm
    rw [this, ← protocol_bytes]
    exact header_encode PROTOCOL m
  · intro h1
    obtain ⟨k, v, ns, e⟩ := hs.encoded h1 hlt
    rw [hb] at e
    cases e
    exact ⟨k, v, _, block_encode k v ns⟩

/-- A history with a header that carries metadata. -/
example : ((runSt [.createHeader (some ⟨some [9], none⟩), .put [1] none, .del [1]] St.init).core) =
    [[0x0A, 0x08, 0x68, 0x79, 0x70, 0x65, 0x72, 0x62, 0x65, 0x65, 0x12, 0x03, 0x0A, 0x01, 9],
     [0x0A, 0x05, 0x0A, 0x03, 0x0A, 0x01, 0x01, 0x12, 0x01, 1], [0x0A, 0x02, 0x0A, 0x00, 0x12, 0x01, 1]] := by decide +kernel

/-! ## C55 -/

/-- C55.  The reader, with the limits of prost, understands exactly the blocks that the protobuf rules
give a meaning: fields in any order, of several the last, lists packed or not or both, numbers in
any length up to ten bytes, other fields and groups ignored. -/
theorem reader_exact (bs k : Bytes) (v : Option Bytes) (ns : List Node) :
    decodeBlock64 bs = some (k, v, ns) ↔ Wire.Reads k v (ns.map fun n => (n.keys, n.children.map fun c => (c.seq, c.offset))) bs :=
  decodeBlock64_iff

/-- C55: no block has two meanings. -/
theorem reads_unique {bs k k' : Bytes} {v v' : Option Bytes} {nodes nodes' : List (List Nat × List (Nat × Nat))}
    (h : Wire.Reads k v nodes bs) (h' : Wire.Reads k' v' nodes' bs) : k = k' ∧ v = v' ∧ nodes = nodes' := by
  rw [← unshape nodes] at h
  rw [← unshape nodes'] at h'
  have h1 := decodeBlock64_iff.mpr h
  rw [decodeBlock64_iff.mpr h'] at h1
  simp only [Option.some.injEq, Prod.mk.injEq] at h1
  refine ⟨h1.1.symm, h1.2.1.symm, ?_⟩
  rw [← unshape nodes, ← h1.2.2, unshape]

/-- C55: what the format writes is read as what was written, as long as the numbers fit. -/
theorem format_reads {k : Bytes} {v : Option Bytes} {nodes : List (List Nat × List (Nat × Nat))} {bs : Bytes}
    (h : CBlock k v nodes bs) (hl : bs.length < 2 ^ 64)
    (hn : ∀ n ∈ nodes, (∀ p ∈ n.1, p < 2 ^ 64) ∧ ∀ c ∈ n.2, c.1 < 2 ^ 64 ∧ c.2 < 2 ^ 64) : Wire.Reads k v nodes bs := by
  rw [← unshape nodes]
  refine decodeBlock64_iff.mp ?_
  have he := h.eq
  rw [he] at hl ⊢
  refine block_roundtrip k v _ hl fun n hm => ?_
  obtain ⟨x, hx, rfl⟩ := List.mem_map.mp hm
  refine ⟨(hn x hx).1, fun c hc => ?_⟩
  obtain ⟨y, hy, rfl⟩ := List.mem_map.mp hc
  exact (hn x hx).2 y hy

/-- C55: a meaning within the limits is what the reader without limits, the one the operations of the
model use, finds too. -/
theorem reads_blockOf {k : Bytes} {v : Option Bytes} {nodes : List (List Nat × List (Nat × Nat))} {bs : Bytes}
    (h : Wire.Reads k v nodes bs) : ∃ m, decodeNode bs = some m ∧ m.key = k ∧ m.value = v ∧
      decodeYolo m.index = some (nodes.map levelOf) := by
  obtain ⟨fs, i, gs, h1, h2, h3, h4⟩ := h
  refine ⟨⟨i, k, v⟩, decodeNode64_sub (decodeNode64_iff.mpr ⟨fs, h1, h2⟩), rfl, rfl, ?_⟩
  exact decodeYolo64_sub (decodeYolo64_iff.mpr ⟨gs, h3, h4⟩)

/-- The block of the first put above, as another writer might have written it: the key comes first and
twice (the second counts), the number 1 takes two bytes and is not packed, the value comes before
the index, and there are fields 4 (a number), 5 (eight bytes) and 6 (four bytes) to be skipped. -/
example : Wire.Reads [0x63] (some [7, 8]) [([1], [])]
    [0x12, 0x02, 0xAA, 0xBB, 0x20, 0xFF, 0x01, 0x12, 0x01, 0x63, 0x1A, 0x82, 0x00, 0x07, 0x08,
     0x29, 1, 2, 3, 4, 5, 6, 7, 8, 0x0A, 0x05, 0x0A, 0x03, 0x08, 0x81, 0x00, 0x35, 1, 2, 3, 4] :=
  (reader_exact _ _ _ [⟨[1], []⟩]).mp (by decide +kernel)

/-- Keys half packed and half not; a missing index, key and value. -/
example : Wire.Reads [] none [([1, 2, 3, 300], [])]
      [0x0A, 0x0B, 0x0A, 0x09, 0x0A, 0x02, 1, 2, 0x08, 3, 0x08, 0xAC, 0x02] ∧ Wire.Reads [] none [] [] :=
  ⟨(reader_exact _ _ _ [⟨[1, 2, 3, 300], []⟩]).mp (by decide +kernel), (reader_exact _ _ _ []).mp (by decide +kernel)⟩

/-- Groups are skipped: field 4 holds a group with a number and a nested group inside. -/
example : Wire.Reads [0x63] none [] [0x23, 0x08, 0x05, 0x2B, 0x12, 0x01, 0xFF, 0x2C, 0x24, 0x12, 0x01, 0x63] :=
  (reader_exact _ _ _ []).mp (by decide +kernel)

/-- A hundred open groups may be closed again, but a hundred and first is refused; and groups have to
be closed in the right order, and may not be the key. -/
example : (decodeBlock64 (List.replicate 100 0x23 ++ List.replicate 100 0x24)).isSome = true ∧
    decodeBlock64 (List.replicate 101 0x23 ++ List.replicate 101 0x24) = none ∧
    decodeBlock64 [0x23, 0x2B, 0x24, 0x2C] = none ∧ decodeBlock64 [0x13, 0x14] = none := by decide +kernel

/-- Nonsense has no meaning: a length beyond the end, a key that is a number, an odd child list. -/
example : (∀ k v nodes, ¬ Wire.Reads k v nodes [0x12, 0x05, 1]) ∧ (∀ k v nodes, ¬ Wire.Reads k v nodes [0x10, 0x05]) ∧
    ∀ k v nodes, ¬ Wire.Reads k v nodes [0x0A, 0x05, 0x0A, 0x03, 0x12, 0x01, 0x01] := by
  have key : ∀ bs, decodeBlock64 bs = none → ∀ k v nodes, ¬ Wire.Reads k v nodes bs := by
    intro bs h k v nodes hr
    rw [← unshape nodes] at hr
    rw [decodeBlock64_iff.mpr hr] at h
    cases h
  exact ⟨key _ (by decide +kernel), key _ (by decide +kernel), key _ (by decide +kernel)⟩

/-- C28, C55: the reader of headers (which the library has, though it never reads one) understands exactly
the headers that the protobuf rules give a meaning. -/
theorem header_reader_exact (bs protocol : Bytes) (metadata : Option Metadata) :
    decodeHeader64 bs = some ⟨protocol, metadata⟩ ↔
      Wire.ReadsHeader protocol (metadata.map fun m => (m.contentFeed, m.userData)) bs :=
  decodeHeader64_iff

/-- C28: the bytes written as a header mean that header. -/
theorem format_header_reads {protocol : Bytes} {metadata : Option (Option Bytes × Option Bytes)} {bs : Bytes}
    (h : CHeader protocol metadata bs) (hu : Wire.IsUtf8 protocol) (hl : bs.length < 2 ^ 64) :
    Wire.ReadsHeader protocol metadata bs := by
  have hm : metadata = (metadata.map fun m => (⟨m.1, m.2⟩ : Metadata)).map fun m => (m.contentFeed, m.userData) := by
    cases metadata <;> rfl
  have he : bs = encodeHeader ⟨protocol, metadata.map fun m => (⟨m.1, m.2⟩ : Metadata)⟩ := by
    rw [hm] at h
    exact h.unique (header_encode _ _)
  rw [hm, ← header_reader_exact, he]
  exact header_roundtrip _ (validUtf8_iff.mpr hu) (he ▸ hl)

/-- Metadata in two messages, the protocol after them and twice, and another field between: they count
as one, and the last protocol counts.  A protocol that is not text is refused, even if it is not the
last. -/
example : Wire.ReadsHeader [0x68] (some (some [1], some [3]))
      [0x12, 0x06, 0x0A, 0x01, 0x01, 0x12, 0x01, 0x02, 0x18, 0x05, 0x0A, 0x01, 0x67, 0x12, 0x03, 0x12, 0x01, 0x03, 0x0A, 0x01, 0x68] ∧
    ∀ p m, ¬ Wire.ReadsHeader p m [0x0A, 0x01, 0xFF, 0x0A, 0x01, 0x68] := by
  refine ⟨(header_reader_exact _ _ (some ⟨some [1], some [3]⟩)).mp (by decide +kernel), fun p m h => ?_⟩
  have hm : m = (m.map fun m => (⟨m.1, m.2⟩ : Metadata)).map fun m => (m.contentFeed, m.userData) := by
    cases m <;> rfl
  rw [hm, ← header_reader_exact] at h
  have : decodeHeader64 [0x0A, 0x01, 0xFF, 0x0A, 0x01, 0x68] = none := by decide +kernel
  rw [this] at h
  cases h

end Hyperbee
