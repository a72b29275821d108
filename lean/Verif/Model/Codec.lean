import Verif.Model.Bytes
/-!
# The block wire format

Models the protobuf messages of src/schema.proto as encoded and decoded by `prost` (the generated
code is `include!`d at src/lib.rs:7-9).

Simplifications, all recorded in DESIGN.md:
* `u64`/`usize` are `Nat`; the varint decoder has no 10-byte limit.  `Verif.Model.Codec64` gives the
  64-bit limited decoder and proves the two agree on every value below 2^64.
* prost's limit on the nesting of groups (wire types 3 and 4, which this schema never uses) is only in
  `Verif.Model.Codec64`.
* prost's specific `DecodeError` message is dropped.
-/

namespace Hyperbee

/-- LEB128 with an explicit bound on the number of steps. -/
def encodeVarintF : Nat → Nat → Bytes
  | 0, n => [UInt8.ofNat n]
  | fuel + 1, n =>
    if n < 128 then [UInt8.ofNat n]
    else UInt8.ofNat (n % 128 + 128) :: encodeVarintF fuel (n / 128)

/-- `prost::encoding::encode_varint`. -/
def encodeVarint (n : Nat) : Bytes := encodeVarintF n n

/-- `prost::encoding::decode_varint` (without the 64-bit limit). -/
def decodeVarint : Bytes → Option (Nat × Bytes)
  | [] => none
  | b :: bs =>
    if b.toNat < 128 then some (b.toNat, bs)
    else
      match decodeVarint bs with
      | none => none
      | some (n, rest) => some (b.toNat - 128 + 128 * n, rest)

/-- `prost::encoding::encode_key` for the length-delimited wire type (2). -/
def encodeKeyLen (tag : Nat) : Bytes := encodeVarint (tag * 8 + 2)

/-- A length-delimited field: `bytes::encode`, `string::encode`, `message::encode`. -/
def encodeLenField (tag : Nat) (bs : Bytes) : Bytes :=
  encodeKeyLen tag ++ encodeVarint bs.length ++ bs

/-- `uint64::encode_packed`: nothing for an empty list. -/
def encodePacked (tag : Nat) (ns : List Nat) : Bytes :=
  if ns.isEmpty then [] else encodeLenField tag (ns.flatMap encodeVarint)

/-- The payload of one decoded field. -/
inductive Field where
  | varint (n : Nat)
  | fixed64 (b : Bytes)
  | len (b : Bytes)
  | fixed32 (b : Bytes)
  | group
deriving DecidableEq, Repr

/-- Split off the first `n` bytes, or fail (`DecodeError::new("buffer underflow")`). -/
def takeBytes (n : Nat) (bs : Bytes) : Option (Bytes × Bytes) :=
  if n ≤ bs.length then some (bs.take n, bs.drop n) else none

/-- The payload for a wire type other than those of groups. -/
def decodePayload (wire : Nat) (bs : Bytes) : Option (Field × Bytes) :=
  match wire with
  | 0 => (decodeVarint bs).map fun (n, r) => (.varint n, r)
  | 1 => (takeBytes 8 bs).map fun (b, r) => (.fixed64 b, r)
  | 2 =>
    match decodeVarint bs with
    | none => none
    | some (n, r) => (takeBytes n r).map fun (b, r) => (.len b, r)
  | 5 => (takeBytes 4 bs).map fun (b, r) => (.fixed32 b, r)
  | _ => none

/-- The rest of a group: `prost::encoding::skip_field`, its recursion turned into a stack of the tags
of the open groups, innermost first.  Every field consumes at least one byte. -/
def skipGroupF : Nat → List Nat → Bytes → Option Bytes
  | _, [], bs => some bs
  | 0, _ :: _, _ => none
  | fuel + 1, tag :: st, bs =>
    match decodeVarint bs with
    | none => none
    | some (key, r) =>
      if key / 8 = 0 then none
      else if key % 8 = 4 then
        if key / 8 = tag then skipGroupF fuel st r else none
      else if key % 8 = 3 then skipGroupF fuel (key / 8 :: tag :: st) r
      else
        match decodePayload (key % 8) r with
        | none => none
        | some (_, r) => skipGroupF fuel (tag :: st) r

/-- The payload of the field `tag`. -/
def decodeField (tag wire : Nat) (bs : Bytes) : Option (Field × Bytes) :=
  if wire = 3 then (skipGroupF bs.length [tag] bs).map fun r => (.group, r) else decodePayload wire bs

/-- All the fields of a message, in order: the loop of `prost::Message::merge`.
Every field consumes at least one byte, so `fuel = bs.length` is enough. -/
def decodeFieldsF : Nat → Bytes → Option (List (Nat × Field))
  | _, [] => some []
  | 0, _ :: _ => none
  | fuel + 1, b :: bs =>
    match decodeVarint (b :: bs) with
    | none => none
    | some (key, r) =>
      if key / 8 = 0 then none
      else
        match decodeField (key / 8) (key % 8) r with
        | none => none
        | some (f, r) =>
          match decodeFieldsF fuel r with
          | none => none
          | some fs => some ((key / 8, f) :: fs)

def decodeFields (bs : Bytes) : Option (List (Nat × Field)) := decodeFieldsF bs.length bs

/-- A packed list of varints: `merge_loop` of `uint64::merge_repeated`. -/
def decodeVarintsF : Nat → Bytes → Option (List Nat)
  | _, [] => some []
  | 0, _ :: _ => none
  | fuel + 1, b :: bs =>
    match decodeVarint (b :: bs) with
    | none => none
    | some (n, r) =>
      match decodeVarintsF fuel r with
      | none => none
      | some ns => some (n :: ns)

def decodeVarints (bs : Bytes) : Option (List Nat) := decodeVarintsF bs.length bs

/-- `message YoloIndex.Level`, src/schema.proto:2-5. -/
structure Level where
  keys : List Nat
  children : List Nat
deriving DecidableEq, Repr

/-- `message Node`, src/schema.proto:20-24 (called `NodeSchema` in src/blocks.rs:16). -/
structure NodeSchema where
  index : Bytes
  key : Bytes
  value : Option Bytes
deriving DecidableEq, Repr

/-- `message Header.Metadata`, src/schema.proto:11-14. -/
structure Metadata where
  contentFeed : Option Bytes
  userData : Option Bytes
deriving DecidableEq, Repr

/-- `message Header`, src/schema.proto:10-18. -/
structure Header where
  protocol : Bytes
  metadata : Option Metadata
deriving DecidableEq, Repr

/-- `Level::encode`. -/
def encodeLevel (l : Level) : Bytes := encodePacked 1 l.keys ++ encodePacked 2 l.children

/-- `YoloIndex::encode`, called at src/blocks.rs:119. -/
def encodeYolo (ls : List Level) : Bytes := ls.flatMap fun l => encodeLenField 1 (encodeLevel l)

/-- An `optional bytes` field. -/
def encodeOptLen (tag : Nat) : Option Bytes → Bytes
  | none => []
  | some b => encodeLenField tag b

/-- `NodeSchema::encode`, called at src/blocks.rs:128. -/
def encodeNode (m : NodeSchema) : Bytes :=
  encodeLenField 1 m.index ++ encodeLenField 2 m.key ++ encodeOptLen 3 m.value

/-- `Metadata::encode`. -/
def encodeMetadata (m : Metadata) : Bytes :=
  encodeOptLen 1 m.contentFeed ++ encodeOptLen 2 m.userData

/-- `Header::encode`, called at src/tree.rs:131. -/
def encodeHeader (h : Header) : Bytes :=
  encodeLenField 1 h.protocol ++ encodeOptLen 2 (h.metadata.map encodeMetadata)

/-- One step of `uint64::merge_repeated`: packed and unpacked encodings are both accepted. -/
def mergeRepeated (old : List Nat) : Field → Option (List Nat)
  | .len b => (decodeVarints b).map fun ns => old ++ ns
  | .varint n => some (old ++ [n])
  | _ => none

/-- `Level::merge_field` folded over the fields; unknown tags are skipped. -/
def mergeLevel : List (Nat × Field) → Level → Option Level
  | [], l => some l
  | (tag, f) :: fs, l =>
    if tag = 1 then
      match mergeRepeated l.keys f with
      | none => none
      | some ks => mergeLevel fs { l with keys := ks }
    else if tag = 2 then
      match mergeRepeated l.children f with
      | none => none
      | some cs => mergeLevel fs { l with children := cs }
    else mergeLevel fs l

/-- `Level::decode`. -/
def decodeLevel (bs : Bytes) : Option Level :=
  match decodeFields bs with
  | none => none
  | some fs => mergeLevel fs ⟨[], []⟩

/-- `YoloIndex::merge_field` folded over the fields. -/
def mergeYolo : List (Nat × Field) → List Level → Option (List Level)
  | [], ls => some ls
  | (tag, f) :: fs, ls =>
    if tag = 1 then
      match f with
      | .len b =>
        match decodeLevel b with
        | none => none
        | some l => mergeYolo fs (ls ++ [l])
      | _ => none
    else mergeYolo fs ls

/-- `YoloIndex::decode`, called at src/blocks.rs:181. -/
def decodeYolo (bs : Bytes) : Option (List Level) :=
  match decodeFields bs with
  | none => none
  | some fs => mergeYolo fs []

/-- `NodeSchema::merge_field` folded over the fields: the last occurrence of a field wins, and
prost does not check that `required` fields are present. -/
def mergeNode : List (Nat × Field) → NodeSchema → Option NodeSchema
  | [], m => some m
  | (tag, f) :: fs, m =>
    if tag = 1 then
      match f with
      | .len b => mergeNode fs { m with index := b }
      | _ => none
    else if tag = 2 then
      match f with
      | .len b => mergeNode fs { m with key := b }
      | _ => none
    else if tag = 3 then
      match f with
      | .len b => mergeNode fs { m with value := some b }
      | _ => none
    else mergeNode fs m

/-- `NodeSchema::decode`, called at src/blocks.rs:83. -/
def decodeNode (bs : Bytes) : Option NodeSchema :=
  match decodeFields bs with
  | none => none
  | some fs => mergeNode fs ⟨[], [], none⟩

end Hyperbee
