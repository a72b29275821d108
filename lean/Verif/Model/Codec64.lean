import Verif.Model.State
/-!
# The wire format with 64-bit numbers, and the decoding of headers

`Verif.Model.Codec` decodes numbers of any size.  Here are the same decoders with the limits `prost`
0.12 puts on them: a varint has at most ten bytes and a value below 2^64, the key of a field
fits 32 bits, and messages and groups nest at most 100 deep (`DecodeContext::recurse_count`).  The library never decodes a header; `decodeHeader64` is what `Header::decode`
(generated by `prost` from src/schema.proto:10-18) would do for a reader of the core.
-/

namespace Hyperbee

/-- `decode_varint_slow` of `prost::encoding`, having read `count` bytes: at most ten bytes, and the
tenth must be below 2. -/
def decodeVarint64From : Nat → Bytes → Option (Nat × Bytes)
  | _, [] => none
  | count, b :: bs =>
    if count ≥ 10 then none
    else if b.toNat < 128 then
      if count = 9 ∧ b.toNat ≥ 2 then none else some (b.toNat, bs)
    else
      match decodeVarint64From (count + 1) bs with
      | none => none
      | some (n, rest) => some (b.toNat - 128 + 128 * n, rest)

/-- `prost::encoding::decode_varint`. -/
def decodeVarint64 (bs : Bytes) : Option (Nat × Bytes) := decodeVarint64From 0 bs

/-- The payload for a wire type other than those of groups. -/
def decodePayload64 (wire : Nat) (bs : Bytes) : Option (Field × Bytes) :=
  match wire with
  | 0 => (decodeVarint64 bs).map fun (n, r) => (.varint n, r)
  | 1 => (takeBytes 8 bs).map fun (b, r) => (.fixed64 b, r)
  | 2 =>
    match decodeVarint64 bs with
    | none => none
    | some (n, r) => (takeBytes n r).map fun (b, r) => (.len b, r)
  | 5 => (takeBytes 4 bs).map fun (b, r) => (.fixed32 b, r)
  | _ => none

/-- `prost::encoding::skip_field` inside groups; `st` holds the tags of the open groups.  A field,
but not the end of a group, is refused if `lim` groups are open. -/
def skipGroup64F (lim : Nat) : Nat → List Nat → Bytes → Option Bytes
  | _, [], bs => some bs
  | 0, _ :: _, _ => none
  | fuel + 1, tag :: st, bs =>
    match decodeVarint64 bs with
    | none => none
    | some (key, r) =>
      if key ≥ 2 ^ 32 then none
      else if key / 8 = 0 then none
      else if key % 8 = 4 then
        if key / 8 = tag then skipGroup64F lim fuel st r else none
      else if lim ≤ st.length + 1 then none
      else if key % 8 = 3 then skipGroup64F lim fuel (key / 8 :: tag :: st) r
      else
        match decodePayload64 (key % 8) r with
        | none => none
        | some (_, r) => skipGroup64F lim fuel (tag :: st) r

/-- The payload of the field `tag`. -/
def decodeField64 (lim tag wire : Nat) (bs : Bytes) : Option (Field × Bytes) :=
  if wire = 3 then (skipGroup64F lim bs.length [tag] bs).map fun r => (.group, r) else decodePayload64 wire bs

/-- The loop of `prost::Message::merge` with `decode_key`, which refuses keys above `u32::MAX`.
`lim` is the nesting still allowed. -/
def decodeFields64F (lim : Nat) : Nat → Bytes → Option (List (Nat × Field))
  | _, [] => some []
  | 0, _ :: _ => none
  | fuel + 1, b :: bs =>
    match decodeVarint64 (b :: bs) with
    | none => none
    | some (key, r) =>
      if key ≥ 2 ^ 32 then none
      else if key / 8 = 0 then none
      else
        match decodeField64 lim (key / 8) (key % 8) r with
        | none => none
        | some (f, r) =>
          match decodeFields64F lim fuel r with
          | none => none
          | some fs => some ((key / 8, f) :: fs)

/-- `lim` is 100 for the message given to `decode` and 99 for a message inside it. -/
def decodeFields64 (lim : Nat) (bs : Bytes) : Option (List (Nat × Field)) := decodeFields64F lim bs.length bs

/-- A packed list of varints. -/
def decodeVarints64F : Nat → Bytes → Option (List Nat)
  | _, [] => some []
  | 0, _ :: _ => none
  | fuel + 1, b :: bs =>
    match decodeVarint64 (b :: bs) with
    | none => none
    | some (n, r) =>
      match decodeVarints64F fuel r with
      | none => none
      | some ns => some (n :: ns)

def decodeVarints64 (bs : Bytes) : Option (List Nat) := decodeVarints64F bs.length bs

/-- One step of `uint64::merge_repeated`. -/
def mergeRepeated64 (old : List Nat) : Field → Option (List Nat)
  | .len b => (decodeVarints64 b).map fun ns => old ++ ns
  | .varint n => some (old ++ [n])
  | _ => none

/-- `Level::merge_field` folded over the fields. -/
def mergeLevel64 : List (Nat × Field) → Level → Option Level
  | [], l => some l
  | (tag, f) :: fs, l =>
    if tag = 1 then
      match mergeRepeated64 l.keys f with
      | none => none
      | some ks => mergeLevel64 fs { l with keys := ks }
    else if tag = 2 then
      match mergeRepeated64 l.children f with
      | none => none
      | some cs => mergeLevel64 fs { l with children := cs }
    else mergeLevel64 fs l

/-- `Level::decode`. -/
def decodeLevel64 (bs : Bytes) : Option Level :=
  match decodeFields64 99 bs with
  | none => none
  | some fs => mergeLevel64 fs ⟨[], []⟩

/-- `YoloIndex::merge_field` folded over the fields. -/
def mergeYolo64 : List (Nat × Field) → List Level → Option (List Level)
  | [], ls => some ls
  | (tag, f) :: fs, ls =>
    if tag = 1 then
      match f with
      | .len b =>
        match decodeLevel64 b with
        | none => none
        | some l => mergeYolo64 fs (ls ++ [l])
      | _ => none
    else mergeYolo64 fs ls

/-- `YoloIndex::decode`, called at src/blocks.rs:181. -/
def decodeYolo64 (bs : Bytes) : Option (List Level) :=
  match decodeFields64 100 bs with
  | none => none
  | some fs => mergeYolo64 fs []

/-- `NodeSchema::decode`, called at src/blocks.rs:83. -/
def decodeNode64 (bs : Bytes) : Option NodeSchema :=
  match decodeFields64 100 bs with
  | none => none
  | some fs => mergeNode fs ⟨[], [], none⟩

/-- `Metadata::merge_field` folded over the fields. -/
def mergeMetadata : List (Nat × Field) → Metadata → Option Metadata
  | [], m => some m
  | (tag, f) :: fs, m =>
    if tag = 1 then
      match f with
      | .len b => mergeMetadata fs { m with contentFeed := some b }
      | _ => none
    else if tag = 2 then
      match f with
      | .len b => mergeMetadata fs { m with userData := some b }
      | _ => none
    else mergeMetadata fs m

/-- `string::merge`: the bytes must be UTF-8. -/
def validUtf8 (b : Bytes) : Bool := (String.fromUTF8? ⟨b.toArray⟩).isSome

/-- `Header::merge_field` folded over the fields: a repeated metadata message is merged into the
one already there. -/
def mergeHeader64 : List (Nat × Field) → Header → Option Header
  | [], h => some h
  | (tag, f) :: fs, h =>
    if tag = 1 then
      match f with
      | .len b => if validUtf8 b then mergeHeader64 fs { h with protocol := b } else none
      | _ => none
    else if tag = 2 then
      match f with
      | .len b =>
        match decodeFields64 99 b with
        | none => none
        | some gs =>
          match mergeMetadata gs (h.metadata.getD ⟨none, none⟩) with
          | none => none
          | some m => mergeHeader64 fs { h with metadata := some m }
      | _ => none
    else mergeHeader64 fs h

/-- `Header::decode`. -/
def decodeHeader64 (bs : Bytes) : Option Header :=
  match decodeFields64 100 bs with
  | none => none
  | some fs => mergeHeader64 fs ⟨[], none⟩

/-- The nodes of a list of levels, or a panic (src/blocks.rs:184-191). -/
def levelsToNodes64 : List Level → Option (List Node)
  | [] => some []
  | l :: ls =>
    match levelToNode l, levelsToNodes64 ls with
    | some n, some ns => some (n :: ns)
    | _, _ => none

/-- What a block holds: `Blocks::get_from_core` with `BlockEntry::new` and `make_node_vec`
(src/blocks.rs:76-88, 180-213) on the bytes of the block. -/
def decodeBlock64 (bs : Bytes) : Option (Bytes × Option Bytes × List Node) :=
  match decodeNode64 bs with
  | none => none
  | some m =>
    match decodeYolo64 m.index with
    | none => none
    | some ls =>
      match levelsToNodes64 ls with
      | none => none
      | some ns => some (m.key, m.value, ns)

end Hyperbee
