import Verif.Model.SubSession
/-!
# The bindings: uniffi (src/ffi.rs) and C (src/external.rs)

Not modelled: the marshalling generated by uniffi, `c_vec_from_vec`'s assertion that `shrink_to_fit`
makes length and capacity equal (src/external.rs:87-94, which the allocator decides).  The pointers, the memory
and the tasks of the C bindings are in `Model/External`.
-/

namespace Hyperbee

/-! ## uniffi -/

/-- `struct Gotten`, src/ffi.rs:9-13. -/
structure Gotten where
  seq : Nat
  value : Option Bytes
deriving DecidableEq, Repr

/-- `struct Putten`, src/ffi.rs:21-25. -/
structure Putten where
  oldSeq : Option Nat
  newSeq : Nat
deriving DecidableEq, Repr

namespace Ffi

/-- `Hyperbee::version`, src/ffi.rs:48-50. -/
def version : M Nat := Hyperbee.version

/-- `Hyperbee::get`, src/ffi.rs:53-61. -/
def get (key : Bytes) : M (Option Gotten) := do
  let r ← Hyperbee.get key
  pure (r.map fun (seq, value) => ⟨seq, value⟩)

/-- `Hyperbee::put`, src/ffi.rs:66-74. -/
def put (key : Bytes) (value : Option Bytes) : M Putten := do
  let (oldSeq, newSeq) ← Hyperbee.put key value
  pure ⟨oldSeq, newSeq⟩

/-- `Hyperbee::delete`, src/ffi.rs:78-80. -/
def delete (key : Bytes) : M (Option Nat) := Hyperbee.del key

/-- `Prefixed::get`, src/ffi.rs:120-128. -/
def subGet (p : Prefixed) (key : Bytes) : M (Option Gotten) := do
  let r ← p.get key
  pure (r.map fun (seq, value) => ⟨seq, value⟩)

/-- `Prefixed::put`, src/ffi.rs:131-139. -/
def subPut (p : Prefixed) (key : Bytes) (value : Option Bytes) : M Putten := do
  let (oldSeq, newSeq) ← p.put key value
  pure ⟨oldSeq, newSeq⟩

/-- `Prefixed::delete`, src/ffi.rs:142-144. -/
def subDelete (p : Prefixed) (key : Bytes) : M (Option Nat) := p.del key

/-- `default_sub_config`, src/ffi.rs:148-151. -/
def defaultSubConfig : Bytes := defaultSeparator

end Ffi

/-- A call from a foreign language.  `sub` returns an object, which later calls name by the order
in which the objects were created. -/
inductive FfiCmd where
  | version
  | get (k : Bytes)
  | put (k : Bytes) (v : Option Bytes)
  | delete (k : Bytes)
  | sub (pre sep : Bytes)
  | subGet (i : Nat) (k : Bytes)
  | subPut (i : Nat) (k : Bytes) (v : Option Bytes)
  | subDelete (i : Nat) (k : Bytes)

/-- What it returns. -/
inductive FfiReply where
  | version (n : Nat)
  | gotten (g : Option Gotten)
  | putten (p : Putten)
  | deleted (r : Option Nat)
  | object (i : Nat)
  | noObject
  | error (e : Err)
deriving DecidableEq

/-- The database object and the `Prefixed` objects made so far. -/
structure FfiSt where
  st : St
  objects : List Prefixed

/-- `hyperbee_from_ram`, src/ffi.rs:94-101. -/
def FfiSt.fromRam : FfiSt := ⟨St.init, []⟩

/-- As `replyOf`. -/
def ffiReply (m : M α) (f : α → FfiReply) (x : FfiSt) : FfiReply × FfiSt :=
  match m x.st with
  | (.ok a, s') => (f a, { x with st := s' })
  | (.error e, s') => (.error e, { x with st := s' })

/-- A call on one of the `Prefixed` objects. -/
def ffiVia (i : Nat) (x : FfiSt) (f : Prefixed → FfiReply × FfiSt) : FfiReply × FfiSt :=
  match x.objects[i]? with
  | some p => f p
  | none => (.noObject, x)

def ffiExec (c : FfiCmd) (x : FfiSt) : FfiReply × FfiSt :=
  match c with
  | .version => ffiReply Ffi.version .version x
  | .get k => ffiReply (Ffi.get k) .gotten x
  | .put k v => ffiReply (Ffi.put k v) .putten x
  | .delete k => ffiReply (Ffi.delete k) .deleted x
  | .sub pre sep => (.object x.objects.length, { x with objects := x.objects ++ [⟨pre, sep⟩] })
  | .subGet i k => ffiVia i x fun p => ffiReply (Ffi.subGet p k) .gotten x
  | .subPut i k v => ffiVia i x fun p => ffiReply (Ffi.subPut p k v) .putten x
  | .subDelete i k => ffiVia i x fun p => ffiReply (Ffi.subDelete p k) .deleted x

def ffiRun : List FfiCmd → FfiSt → List FfiReply × FfiSt
  | [], x => ([], x)
  | c :: cs, x =>
    let (r, x') := ffiExec c x
    let (rs, x'') := ffiRun cs x'
    (r :: rs, x'')

/-! ## C -/

/-- The arguments of `HbGetResultCallback`, src/external.rs:20-28. -/
structure CallbackArgs where
  errorCode : Int
  errorMessage : Bytes
  seq : Nat
  value : Bytes
deriving DecidableEq

/-- The task spawned by `hb_get`, src/external.rs:136-148: it ends in calling the callback, or in a
panic. -/
def hbGetTask (key : Bytes) : M CallbackArgs := do
  match ← tryResult (get key) with
  | .ok (some (seq, some value)) => pure ⟨0, [], seq, value⟩
  | .ok _ => throw (.panic "external.rs:145 todo!()")
  | .error _ => throw (.panic "external.rs:146 todo!()")

/-- `hb_get`, src/external.rs:122-150, together with the task it spawns run to its end: the return
code, and the call of the callback, if it comes to that (a panic in a spawned task ends that task
only). -/
def hbGet (key : Bytes) (s : St) : (Int × Option CallbackArgs) × St :=
  match hbGetTask key s with
  | (.ok c, s') => ((0, some c), s')
  | (.error _, s') => ((0, none), s')

end Hyperbee
