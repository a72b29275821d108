import Verif.Proof.Codec64
import Verif.Props.Structure
/-!
# Encoding and decoding

Property C20.  The decoders here are the ones with prost's limits (`Verif.Model.Codec64`): varints of
at most ten bytes that fit 64 bits, 32-bit keys, UTF-8 strings.  The rest of the model uses decoders
without these limits; `limits_only_refuse` and `reachable_decode` relate the two.
-/

namespace Hyperbee

/-! ## C20 -/

/-- All the numbers in a node fit 64 bits. -/
structure Node.Fits (n : Node) : Prop where
  keys : ∀ k ∈ n.keys, k < 2 ^ 64
  children : ∀ c ∈ n.children, c.seq < 2 ^ 64 ∧ c.offset < 2 ^ 64

theorem encodeBlock_length (k : Bytes) (v : Option Bytes) (ns : List Node) :
    (encodeYolo (ns.map toLevel)).length ≤ (encodeBlock k v ns).length := by
  unfold encodeBlock encodeNode
  have := encodeLenField_length 1 (encodeYolo (ns.map toLevel))
  simp only [List.length_append]
  omega

/-- C20, numbers: every number below 2^64 is read back, whatever follows it. -/
theorem varint_roundtrip {n : Nat} (h : n < 2 ^ 64) (rest : Bytes) :
    decodeVarint64 (encodeVarint n ++ rest) = some (n, rest) := decode64_encodeVarint h rest

/-- The largest number takes ten bytes; one more bit is refused. -/
example : (encodeVarint (2 ^ 64 - 1)).length = 10 ∧
    decodeVarint64 (encodeVarint (2 ^ 64 - 1) ++ [7]) = some (2 ^ 64 - 1, [7]) ∧
    decodeVarint64 (encodeVarint (2 ^ 64)) = none := by decide +kernel

/-- C20.  What is written as a block is read back: the key, the value - absent or present, empty or
not - and the nodes. -/
theorem block_roundtrip (k : Bytes) (v : Option Bytes) (ns : List Node)
    (hl : (encodeBlock k v ns).length < 2 ^ 64) (hn : ∀ n ∈ ns, n.Fits) :
    decodeBlock64 (encodeBlock k v ns) = some (k, v, ns) := by
  have hy := encodeBlock_length k v ns
  unfold decodeBlock64
  rw [encodeBlock, decodeNode64_encodeNode _ (by rw [encodeBlock] at hl; exact hl)]
  simp only []
  rw [decodeYolo64_encodeYolo _ (by omega) ?_]
  · simp only [levelsToNodes64_map]
  intro l hl
  obtain ⟨n, hm, rfl⟩ := List.mem_map.mp hl
  refine ⟨(hn n hm).keys, ?_⟩
  intro x hx
  obtain ⟨c, hc, hx⟩ := List.mem_flatMap.mp hx
  have := (hn n hm).children c hc
  rcases List.mem_cons.mp hx with rfl | hx
  · exact this.1
  · rcases List.mem_cons.mp hx with rfl | hx
    · exact this.2
    · cases hx

/-- Two nodes, numbers at the limit, an empty key, and a value that is empty but not absent. -/
example : decodeBlock64 (encodeBlock [] (some []) [⟨[1, 2 ^ 64 - 1], [⟨2 ^ 64 - 1, 0⟩, ⟨300, 2 ^ 63⟩, ⟨0, 1⟩]⟩, ⟨[], []⟩]) =
      some ([], some [], [⟨[1, 2 ^ 64 - 1], [⟨2 ^ 64 - 1, 0⟩, ⟨300, 2 ^ 63⟩, ⟨0, 1⟩]⟩, ⟨[], []⟩]) ∧
    decodeBlock64 (encodeBlock [] none []) = some ([], none, []) := by decide +kernel

/-- Consequently different contents are written differently. -/
theorem encodeBlock_injective {k k' : Bytes} {v v' : Option Bytes} {ns ns' : List Node}
    (h : encodeBlock k v ns = encodeBlock k' v' ns') : k = k' ∧ v = v' ∧ ns = ns' := by
  have h1 := blockOf_encodeBlock k v ns
  rw [h, blockOf_encodeBlock] at h1
  cases h1
  exact ⟨rfl, rfl, rfl⟩

example : encodeBlock [1] none [] ≠ encodeBlock [1] (some []) [] := by decide +kernel

/-- C20, headers: what is written is read back, if the protocol is a string at all. -/
theorem header_roundtrip (h : Header) (hu : validUtf8 h.protocol = true) (hl : (encodeHeader h).length < 2 ^ 64) :
    decodeHeader64 (encodeHeader h) = some h := decodeHeader64_encode h hu hl

/-- Empty and absent metadata fields are told apart. -/
example : decodeHeader64 (encodeHeader ⟨PROTOCOL, some ⟨some [], none⟩⟩) = some ⟨PROTOCOL, some ⟨some [], none⟩⟩ ∧
    decodeHeader64 (encodeHeader ⟨PROTOCOL, some ⟨none, none⟩⟩) = some ⟨PROTOCOL, some ⟨none, none⟩⟩ ∧
    decodeHeader64 (encodeHeader ⟨PROTOCOL, none⟩) = some ⟨PROTOCOL, none⟩ ∧ validUtf8 PROTOCOL = true := by decide +kernel

/-- On all bytes: a decoder with prost's limits that succeeds gives what the model's decoder gives. -/
theorem limits_only_refuse (bs : Bytes) :
    (∀ m, decodeNode64 bs = some m → decodeNode bs = some m) ∧
    (∀ ls, decodeYolo64 bs = some ls → decodeYolo bs = some ls) ∧
    (∀ l, decodeLevel64 bs = some l → decodeLevel bs = some l) :=
  ⟨fun _ h => decodeNode64_sub h, fun _ h => decodeYolo64_sub h, fun _ h => decodeLevel64_sub h⟩

/-- They do refuse more: a number that does not fit, and a varint of eleven bytes. -/
example : decodeLevel (encodeLevel ⟨[2 ^ 64], []⟩) = some ⟨[2 ^ 64], []⟩ ∧ decodeLevel64 (encodeLevel ⟨[2 ^ 64], []⟩) = none := by
  decide +kernel

theorem Reachable.encoded {s : St} (hs : Reachable s) {q : Nat} (h1 : 1 ≤ q) (h2 : q < s.core.length) :
    ∃ k v ns, s.core[q]? = some (encodeBlock k v ns) := by
  obtain ⟨s', hs', hc⟩ := hs.take (q + 1)
  have hl : s'.core.length = q + 1 := by rw [hc, List.length_take]; omega
  obtain ⟨H, t, hn⟩ := hs'.newest (by omega)
  obtain ⟨k, v, ns, e, _⟩ := hn.block
  refine ⟨k, v, ns, ?_⟩
  have h3 : s'.core[q]? = some (encodeBlock k v ns) := by
    rw [e, List.getElem?_append_right (by rw [List.length_take]; omega), List.length_take]
    rw [show q - min (s'.core.length - 1) s'.core.length = 0 by omega]
    rfl
  rw [hc, List.getElem?_take_of_lt (by omega)] at h3
  exact h3

/-- A core whose numbers fit: fewer than 2^64 blocks, each of fewer than 2^64 bytes. -/
structure CoreFits (core : List Bytes) : Prop where
  blocks : core.length < 2 ^ 64
  bytes : ∀ b ∈ core, b.length < 2 ^ 64

/-- The numbers in the nodes of a block of a core that fits, fit. -/
theorem fits_numbers {s : St} (hs : Reachable s) (hf : CoreFits s.core) {q : Nat} (h1 : 1 ≤ q) (h2 : q < s.core.length)
    {k : Bytes} {v : Option Bytes} {ns : List Node} (e : s.core[q]? = some (encodeBlock k v ns)) :
    ∀ n ∈ ns, n.Fits := by
  obtain ⟨m, ls, w1, _, w3⟩ := hs.sound h1 h2
  have hw : m = ⟨encodeYolo (ns.map toLevel), k, v⟩ ∧ ls = ns.map toLevel := by
    unfold wireBlock at w1
    simp only [e, encodeBlock, decodeNode_encodeNode, decodeYolo_encodeYolo, Option.some.injEq, Prod.mk.injEq] at w1
    exact ⟨w1.1.symm, w1.2.symm⟩
  obtain ⟨rfl, rfl⟩ := hw
  have hb := hf.blocks
  intro n hn
  obtain ⟨i, hi⟩ := List.mem_iff_getElem?.mp hn
  have hl : (ns.map toLevel)[i]? = some (toLevel n) := by rw [List.getElem?_map, hi]; rfl
  refine ⟨fun p hp => ?_, fun c hc => ?_⟩
  · have := (w3.keys (toLevel n) (List.mem_of_getElem? hl) p hp).2.1
    omega
  · obtain ⟨refs, g1, g2⟩ := w3.children i _ hl
    have hr : (c.seq, c.offset) ∈ refs := by
      have hinj : ∀ (cs : List Child) (rs : List (Nat × Nat)), (cs.flatMap fun c => [c.seq, c.offset]) =
          (rs.flatMap fun r => [r.1, r.2]) → rs = cs.map fun c => (c.seq, c.offset) := by
        intro cs
        induction cs with
        | nil => intro rs h; cases rs with
          | nil => rfl
          | cons r rs => simp at h
        | cons c cs ih => intro rs h; cases rs with
          | nil => simp at h
          | cons r rs =>
            simp only [List.flatMap_cons, List.cons_append, List.nil_append, List.cons.injEq] at h
            rw [List.map_cons, ← ih rs h.2.2, h.1, h.2.1]
      rw [hinj n.children refs g1]
      exact List.mem_map.mpr ⟨c, hc, rfl⟩
    obtain ⟨g3, m', ls', g4, g5⟩ := g2 _ hr
    have hlt : c.seq < s.core.length := by
      rcases g3 with g3 | g3
      · exact Nat.lt_trans g3 h2
      · have := g3.1; simp only at this; omega
    refine ⟨by omega, ?_⟩
    have hp : 1 ≤ c.seq := by
      rcases Nat.eq_zero_or_pos c.seq with h0 | h0
      · exfalso
        simp only [h0] at g4
        obtain ⟨s', hs', hc'⟩ := hs.take 1
        obtain ⟨cs, rfl⟩ := hs'
        obtain ⟨m0, hm⟩ := header_of_len cs (by rw [hc', List.length_take]; omega)
        have hw := wireBlock_header m0
        rw [← hm, hc'] at hw
        unfold wireBlock at hw g4
        rw [List.getElem?_take_of_lt (by omega)] at hw
        rw [hw] at g4
        cases g4
      · exact h0
    obtain ⟨k', v', ns', e'⟩ := hs.encoded hp hlt
    have hls : ls' = ns'.map toLevel := by
      unfold wireBlock at g4
      simp only [e', encodeBlock, decodeNode_encodeNode, decodeYolo_encodeYolo, Option.some.injEq, Prod.mk.injEq] at g4
      exact g4.2.symm
    have y1 := encodeBlock_length k' v' ns'
    have y2 := encodeYolo_length (ns'.map toLevel)
    have y3 := hf.bytes _ (List.mem_of_getElem? e')
    rw [hls] at g5
    simp only at g5
    omega

/-- C20 along histories: as long as the numbers fit, every data block that any history writes is
readable within prost's limits, and reads as it does without them. -/
theorem reachable_decode {s : St} (hs : Reachable s) (hf : CoreFits s.core) {q : Nat} (h1 : 1 ≤ q) (h2 : q < s.core.length) :
    ∃ b k v ns, s.core[q]? = some b ∧ decodeBlock64 b = some (k, v, ns) ∧ blockOf b = some ⟨ns, k, v⟩ := by
  obtain ⟨k, v, ns, e⟩ := hs.encoded h1 h2
  refine ⟨_, k, v, ns, e, block_roundtrip k v ns (hf.bytes _ (List.mem_of_getElem? e))
    (fits_numbers hs hf h1 h2 e), blockOf_encodeBlock k v ns⟩


/-- The demo core fits, and one of its blocks. -/
example : CoreFits (runSt demo St.init).core ∧
    ((runSt demo St.init).core[9]?.bind decodeBlock64).map (·.2.2.length) = some 3 := by
  refine ⟨⟨by decide +kernel, by decide +kernel⟩, by decide +kernel⟩

end Hyperbee
