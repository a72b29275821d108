import Verif.Model.Codec
/-!
# The wire format

What the bytes of a block mean according to the protobuf encoding and src/schema.proto, stated
without encoders or decoders.  (`Field`, `Level`, `NodeSchema`, `Header` and `Metadata` are used as
plain data.)
-/

namespace Hyperbee.Wire

/-! ## Numbers -/

/-- The number made of groups of seven bits, least significant group first. -/
def groups : Bytes → Nat
  | [] => 0
  | b :: bs => b.toNat % 128 + 128 * groups bs

/-- The bytes say the number `n`: every byte but the last has its top bit set. -/
structure Varint (n : Nat) (bs : Bytes) : Prop where
  value : groups bs = n
  more : ∀ b ∈ bs.dropLast, 128 ≤ b.toNat
  last : ∃ b, bs.getLast? = some b ∧ b.toNat < 128

/-- A reader of 64-bit numbers accepts at most ten bytes. -/
structure Varint64 (n : Nat) (bs : Bytes) : Prop extends Varint n bs where
  bytes : bs.length ≤ 10
  bound : n < 2 ^ 64

/-- The shortest way to say `n`: no group of zeros at the end. -/
structure Shortest (n : Nat) (bs : Bytes) : Prop extends Varint n bs where
  short : 2 ≤ bs.length → bs.getLast? ≠ some 0

/-- The bytes of the elements of a list, one after another. -/
inductive Seq {α : Type} (P : α → Bytes → Prop) : List α → Bytes → Prop
  | nil : Seq P [] []
  | cons {x xs a b} : P x a → Seq P xs b → Seq P (x :: xs) (a ++ b)

/-! ## What a writer writes -/

/-- A tag byte, the length, and the bytes. -/
def Len (tag : UInt8) (payload bs : Bytes) : Prop :=
  ∃ l, Shortest payload.length l ∧ bs = tag :: (l ++ payload)

/-- A field that may be missing. -/
def Opt (tag : UInt8) : Option Bytes → Bytes → Prop
  | none, bs => bs = []
  | some v, bs => Len tag v bs

/-- A list of numbers; an empty one takes no bytes. -/
def Packed (tag : UInt8) (ns : List Nat) (bs : Bytes) : Prop :=
  (ns = [] ∧ bs = []) ∨ (ns ≠ [] ∧ ∃ p, Seq Shortest ns p ∧ Len tag p bs)

/-- A node: field 1, the blocks of its keys; field 2, block and offset of each child in turn. -/
def CLevel (keys : List Nat) (children : List (Nat × Nat)) (bs : Bytes) : Prop :=
  ∃ a b, Packed 0x0A keys a ∧ Packed 0x12 (children.flatMap fun c => [c.1, c.2]) b ∧ bs = a ++ b

/-- The nodes of a block, each as field 1. -/
def CIndex (nodes : List (List Nat × List (Nat × Nat))) (bs : Bytes) : Prop :=
  Seq (fun n b => ∃ p, CLevel n.1 n.2 p ∧ Len 0x0A p b) nodes bs

/-- A block: field 1 the nodes, field 2 the key, field 3 the value, if any. -/
def CBlock (key : Bytes) (value : Option Bytes) (nodes : List (List Nat × List (Nat × Nat))) (bs : Bytes) : Prop :=
  ∃ i a b c, CIndex nodes i ∧ Len 0x0A i a ∧ Len 0x12 key b ∧ Opt 0x1A value c ∧ bs = a ++ b ++ c

/-- A header: field 1 the protocol, field 2 the metadata, if any, with its fields 1 and 2. -/
def CHeader (protocol : Bytes) (metadata : Option (Option Bytes × Option Bytes)) (bs : Bytes) : Prop :=
  ∃ a b, Len 0x0A protocol a ∧ bs = a ++ b ∧
    match metadata with
    | none => b = []
    | some (feed, data) => ∃ x y, Opt 0x0A feed x ∧ Opt 0x12 data y ∧ Len 0x12 (x ++ y) b

/-! ## What a reader accepts -/

/-- One field with its number, wire type and payload. -/
inductive Scalar : Nat × Field → Bytes → Prop
  | varint {tag n key x} : Varint64 (8 * tag) key → Varint64 n x → Scalar (tag, .varint n) (key ++ x)
  | fixed64 {tag b key} : Varint64 (8 * tag + 1) key → b.length = 8 → Scalar (tag, .fixed64 b) (key ++ b)
  | len {tag b key l} : Varint64 (8 * tag + 2) key → Varint64 b.length l → Scalar (tag, .len b) (key ++ (l ++ b))
  | fixed32 {tag b key} : Varint64 (8 * tag + 5) key → b.length = 4 → Scalar (tag, .fixed32 b) (key ++ b)

/-- Field numbers are at least 1, and the key fits 32 bits. -/
def IsTag (tag : Nat) : Prop := 1 ≤ tag ∧ tag < 2 ^ 29

/-- The bytes up to the end of the outermost of the groups that are open, given by their numbers,
innermost first.  Inside a group are fields and groups, with fewer than `lim` groups open around each. -/
inductive Inside (lim : Nat) : List Nat → Bytes → Prop
  | done : Inside lim [] []
  | close {tag st key b} : Varint64 (8 * tag + 4) key → Inside lim st b → Inside lim (tag :: st) (key ++ b)
  | nested {tag st key b} : st ≠ [] → st.length < lim → IsTag tag → Varint64 (8 * tag + 3) key →
      Inside lim (tag :: st) b → Inside lim st (key ++ b)
  | field {f st a b} : st ≠ [] → st.length < lim → IsTag f.1 → Scalar f a → Inside lim st b → Inside lim st (a ++ b)

/-- One field, which may be a group. -/
inductive FieldBytes (lim : Nat) : Nat × Field → Bytes → Prop
  | scalar {f b} : Scalar f b → FieldBytes lim f b
  | group {tag key b} : Varint64 (8 * tag + 3) key → Inside lim [tag] b → FieldBytes lim (tag, .group) (key ++ b)

/-- A message: fields in any order. -/
def Message (lim : Nat) (fs : List (Nat × Field)) (bs : Bytes) : Prop :=
  Seq (FieldBytes lim) fs bs ∧ ∀ f ∈ fs, IsTag f.1

/-- The last field with this number. -/
def lastOf (tag : Nat) (fs : List (Nat × Field)) : Option Field := (fs.filter (·.1 = tag)).getLast?.map (·.2)

/-- Every field with this number holds bytes. -/
def AllBytes (tag : Nat) (fs : List (Nat × Field)) : Prop := ∀ f ∈ fs, f.1 = tag → ∃ b, f.2 = .len b

/-- The value of an optional field of bytes: the last one counts. -/
def Says (tag : Nat) (fs : List (Nat × Field)) (v : Option Bytes) : Prop :=
  AllBytes tag fs ∧ lastOf tag fs = v.map .len

/-- The message says `m`; other fields are ignored, a missing index or key is empty. -/
def NodeMeans (fs : List (Nat × Field)) (m : NodeSchema) : Prop :=
  ∃ i k, Says 1 fs i ∧ Says 2 fs k ∧ Says 3 fs m.value ∧ m.index = i.getD [] ∧ m.key = k.getD []

/-- The numbers in one field: one by itself or any number packed. -/
inductive Numbers : Field → List Nat → Prop
  | one {n} : Numbers (.varint n) [n]
  | packed {b ns} : Seq Varint64 ns b → Numbers (.len b) ns

/-- The numbers in all the fields with this number, in order. -/
inductive Repeated (tag : Nat) : List (Nat × Field) → List Nat → Prop
  | nil : Repeated tag [] []
  | skip {f fs ns} : f.1 ≠ tag → Repeated tag fs ns → Repeated tag (f :: fs) ns
  | take {f fs ms ns} : Numbers f ms → Repeated tag fs ns → Repeated tag ((tag, f) :: fs) (ms ++ ns)

def LevelMeans (fs : List (Nat × Field)) (l : Level) : Prop := Repeated 1 fs l.keys ∧ Repeated 2 fs l.children

/-- The levels in all the fields with number 1, in order. -/
inductive YoloMeans : List (Nat × Field) → List Level → Prop
  | nil : YoloMeans [] []
  | skip {f fs ls} : f.1 ≠ 1 → YoloMeans fs ls → YoloMeans (f :: fs) ls
  | take {b gs l fs ls} : Message 99 gs b → LevelMeans gs l → YoloMeans fs ls → YoloMeans ((1, .len b) :: fs) (l :: ls)

/-- The level of a node with these keys and children. -/
def levelOf (n : List Nat × List (Nat × Nat)) : Level := ⟨n.1, n.2.flatMap fun c => [c.1, c.2]⟩

/-- A block read as a whole: key, value and nodes.  (Messages and groups nest at most 100 deep.) -/
def Reads (key : Bytes) (value : Option Bytes) (nodes : List (List Nat × List (Nat × Nat))) (bs : Bytes) : Prop :=
  ∃ fs i gs, Message 100 fs bs ∧ NodeMeans fs ⟨i, key, value⟩ ∧ Message 100 gs i ∧ YoloMeans gs (nodes.map levelOf)

/-- The fields of all metadata messages, in order: several count as one. -/
inductive MetaFields : List (Nat × Field) → List (Nat × Field) → Prop
  | nil : MetaFields [] []
  | skip {f fs hs} : f.1 ≠ 2 → MetaFields fs hs → MetaFields (f :: fs) hs
  | take {b gs fs hs} : Message 99 gs b → MetaFields fs hs → MetaFields ((2, .len b) :: fs) (gs ++ hs)

/-- UTF-8. -/
def IsUtf8 (b : Bytes) : Prop := ∃ cs : List Char, b = cs.flatMap String.utf8EncodeChar

/-- The message says this protocol and these metadata.  Every protocol field must be text, the last
one counts, a missing one is empty; the metadata are there if a field with their number is. -/
def HeaderMeans (fs : List (Nat × Field)) (protocol : Bytes) (metadata : Option (Option Bytes × Option Bytes)) : Prop :=
  ∃ p hs, Says 1 fs p ∧ protocol = p.getD [] ∧ (∀ b, (1, Field.len b) ∈ fs → IsUtf8 b) ∧ MetaFields fs hs ∧
    match metadata with
    | none => (∀ f ∈ fs, f.1 ≠ 2)
    | some (feed, data) => (∃ f ∈ fs, f.1 = 2) ∧ Says 1 hs feed ∧ Says 2 hs data

/-- A header read as a whole. -/
def ReadsHeader (protocol : Bytes) (metadata : Option (Option Bytes × Option Bytes)) (bs : Bytes) : Prop :=
  ∃ fs, Message 100 fs bs ∧ HeaderMeans fs protocol metadata

end Hyperbee.Wire
