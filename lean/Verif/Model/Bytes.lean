/-!
# Byte strings, byte order and traversal limits

Models the ordering that `get_index_of_key` and `TraverseConfig::in_bounds` use.
-/

namespace Hyperbee

/-- `Vec<u8>` / `&[u8]`. -/
abbrev Bytes := List UInt8

/-- `<[u8] as PartialOrd>::partial_cmp` (Rust core): lexicographic order on bytes, a proper
prefix being smaller.  Used by src/lib.rs:332-342 and src/traverse.rs:47-57. -/
def bcmp : Bytes → Bytes → Ordering
  | [], [] => .eq
  | [], _ :: _ => .lt
  | _ :: _, [] => .gt
  | a :: as, b :: bs => if a < b then .lt else if b < a then .gt else bcmp as bs

/-- `enum InfiniteKeys`, src/keys.rs:3-7. -/
inductive InfiniteKeys where
  | positive
  | negative
deriving DecidableEq, Repr

/-- `enum LimitValue`, src/traverse.rs:25-28. -/
inductive LimitValue where
  | finite (b : Bytes)
  | infinite (i : InfiniteKeys)
deriving DecidableEq, Repr

/-- `impl PartialEq<[u8]> for InfiniteKeys`, src/keys.rs:10-14. -/
def InfiniteKeys.eqBytes (_ : InfiniteKeys) (_ : Bytes) : Bool := false

/-- `impl PartialOrd<[u8]> for InfiniteKeys`, src/keys.rs:22-29. -/
def InfiniteKeys.cmp (i : InfiniteKeys) (_ : Bytes) : Ordering :=
  match i with
  | .positive => .gt
  | .negative => .lt

/-- `impl PartialEq<InfiniteKeys> for [u8]`, src/keys.rs:16-20. -/
def bytesEqInf (_ : Bytes) (_ : InfiniteKeys) : Bool := false

/-- `impl PartialOrd<InfiniteKeys> for [u8]`, src/keys.rs:31-38. -/
def bytesCmpInf (_ : Bytes) (other : InfiniteKeys) : Ordering :=
  match other with
  | .positive => .lt
  | .negative => .gt

/-- `impl PartialEq<[u8]> for LimitValue`, src/traverse.rs:38-45. -/
def LimitValue.eqBytes (l : LimitValue) (other : Bytes) : Bool :=
  match l with
  | .finite v => v == other
  | .infinite i => i.eqBytes other

/-- `impl PartialOrd<[u8]> for LimitValue`, src/traverse.rs:47-57.  (`partial_cmp` never returns
`None`, so the `Option` is dropped.)

`get_index_of_key` and `nearest_node` are generic in the key type `T: PartialOrd<[u8]>`
(src/lib.rs:307-313); they are called with `[u8]` (get, put, del), with `InfiniteKeys` (del) and
with `LimitValue` (traverse).  The model uses `LimitValue` for all three: `[u8]` is `finite`, and
`InfiniteKeys` is `infinite`; the comparisons are the same. -/
def LimitValue.cmp (l : LimitValue) (other : Bytes) : Ordering :=
  match l with
  | .finite v => bcmp v other
  | .infinite i => i.cmp other

/-- Decimal digits, as ASCII bytes, of a natural number (Rust's `usize::to_string`). -/
def decimalF : Nat → Nat → Bytes → Bytes
  | 0, _, acc => acc
  | fuel + 1, n, acc =>
    let acc := UInt8.ofNat (48 + n % 10) :: acc
    if n < 10 then acc else decimalF fuel (n / 10) acc

/-- `impl From<usize> for LimitValue`, src/traverse.rs:32-36. -/
def LimitValue.ofNat (n : Nat) : LimitValue := .finite (decimalF (n + 1) n [])

end Hyperbee
