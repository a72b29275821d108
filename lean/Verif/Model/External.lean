import Verif.Model.Async
import Verif.Model.Ffi
/-!
# The C bindings: pointers, memory and tasks (src/external.rs)

A C program holds pointers to a runtime, to databases, and to the strings and buffers handed to its
callback.  Here memory is a list of cells; a pointer is null, or the number of a cell, or the
well-aligned non-null pointer that stands for an empty vector (which owns no memory).  What Rust leaves
undefined (a null or dangling pointer taken for a `Box`, a `Vec` freed with another capacity, and so on)
is an explicit outcome, `Ub`.  The task spawned by `hb_get` takes its steps (`CAct.turn`) whenever the
runtime pleases, in between whatever the C program does.

Simplifications:
* Memory is never given out twice under the same number: a dangling pointer stays dangling.
* `Runtime::new` and `Hyperbee::from_storage_dir` succeed or fail as the environment has it (`ok`, `disk`;
  the latter includes `to_string_lossy`).  Directories do not change meanwhile: the C interface has no calls that
  write.
* `shrink_to_fit` makes length and capacity equal (src/external.rs:88-89 asserts it).
* The callback returns before anything else is done; what it calls comes after it.  (It must not call
  `close_runtime`.)
* A database is one cell: what lies behind its `Box` (and may outlive it, `Props/Drop`) is not counted.
* Rust's aliasing rules for the copies of a `Box` that `from_c` makes are not considered.
-/

namespace Hyperbee

/-- A pointer as C sees it. -/
inductive Ptr where
  /-- `NULL` -/
  | null
  /-- what `Vec::as_mut_ptr` gives for a vector without memory -/
  | empty
  | cell (a : Nat)
deriving DecidableEq, Repr

/-- What a pointer can point to. -/
inductive Obj where
  /-- `Box<Runtime>` -/
  | runtime
  /-- `Box<Hyperbee>` -/
  | hyperbee (s : St)
  /-- the memory of a `Vec<u8>`, its capacity being its length -/
  | buffer (bytes : Bytes)
  /-- `CString` -/
  | string (bytes : Bytes)

/-- What must not happen. -/
inductive Ub where
  /-- a null pointer where there must be none -/
  | null
  /-- memory that was freed, or never was there -/
  | dangling
  /-- memory of another type -/
  | kind
  /-- memory freed with a size it has not -/
  | layout
deriving DecidableEq, Repr

/-- How far a task spawned by `hb_get` has come. -/
inductive GetState where
  /-- not polled yet -/
  | spawned
  /-- in `hb.get(&rkey).await`, src/external.rs:137 -/
  | asking (p : Prog Reply)
  /-- it has called the callback, or panicked, or was dropped with its runtime -/
  | over

/-- A task spawned by `hb_get`, src/external.rs:136-148: the cells of its runtime and of its database,
and the key. -/
structure GetTask where
  rt : Nat
  hb : Nat
  key : Bytes
  state : GetState

/-- The memory Rust has given out, the directories, and the tasks. -/
structure CSt where
  /-- `none`: freed -/
  heap : List (Option Obj)
  disk : Bytes → Option (List Bytes)
  tasks : List GetTask

/-- A program that has just started. -/
def CSt.start (disk : Bytes → Option (List Bytes)) : CSt := ⟨[], disk, []⟩

/-- What the C program calls, and `turn`: the runtime gives a task its turn.  Pointers into C's own
memory are `none` when null. -/
inductive CAct where
  | initRuntime (ok : Bool)
  | closeRuntime (rt : Ptr)
  | openDir (rt : Ptr) (dir : Option Bytes)
  | closeHyperbee (hb : Ptr)
  | get (rt hb : Ptr) (key : Option Bytes)
  | freeString (p : Ptr)
  | freeBuffer (p : Ptr) (len : Nat)
  | turn (i : Nat)
deriving DecidableEq

/-- What comes of it. -/
inductive CRet where
  | unit
  | ptr (p : Ptr)
  | code (n : Int)
  /-- the callback of the get is called -/
  | called (errorCode : Int) (errorMessage : Ptr) (seq : Nat) (value : Ptr) (len : Nat)
  /-- the task panicked at `todo!()` -/
  | panicked
deriving DecidableEq

namespace CSt

/-- The object behind a pointer that is to be a `Box` or the memory of a `CString`. -/
def object (x : CSt) : Ptr → Except Ub (Nat × Obj)
  | .null => .error .null
  | .empty => .error .dangling
  | .cell a =>
    match x.heap[a]? with
    | some (some o) => .ok (a, o)
    | _ => .error .dangling

/-- `from_c(rt)`, src/external.rs:36-39. -/
def runtimeAt (x : CSt) (p : Ptr) : Except Ub Nat :=
  match x.object p with
  | .ok (a, .runtime) => .ok a
  | .ok _ => .error .kind
  | .error e => .error e

/-- `from_c(hb)`, src/external.rs:36-39. -/
def hyperbeeAt (x : CSt) (p : Ptr) : Except Ub (Nat × St) :=
  match x.object p with
  | .ok (a, .hyperbee s) => .ok (a, s)
  | .ok _ => .error .kind
  | .error e => .error e

/-- `to_c`, src/external.rs:30-34; `CString::into_raw`; `forget`. -/
def give (x : CSt) (o : Obj) : Ptr × CSt := (.cell x.heap.length, { x with heap := x.heap ++ [some o] })

/-- Free a cell. -/
def free (x : CSt) (a : Nat) : CSt := { x with heap := x.heap.set a none }

/-- `c_vec_from_vec`, src/external.rs:87-94. -/
def giveVec (x : CSt) (v : Bytes) : Ptr × CSt :=
  if v = [] then (.empty, x) else x.give (.buffer v)

/-- `init_runtime`, src/external.rs:61-72. -/
def initRuntime (x : CSt) (ok : Bool) : CRet × CSt :=
  if ok then (.ptr (x.give .runtime).1, (x.give .runtime).2)
  else (.ptr .null, x)

/-- Dropping a task that was polled and whose get has not returned drops the guard of
`self.tree.read()` (src/hb.rs:75-77), which is in the memory of the database. -/
def dropFault (x : CSt) (t : GetTask) : Option Ub :=
  match t.state with
  | .asking (.step _ _) =>
    match x.hyperbeeAt (.cell t.hb) with
    | .ok _ => none
    | .error e => some e
  | _ => none

/-- `close_runtime`, src/external.rs:74-79: dropping a `Runtime` drops its tasks. -/
def closeRuntime (x : CSt) (p : Ptr) : Except Ub (CRet × CSt) :=
  match x.runtimeAt p with
  | .error e => .error e
  | .ok a =>
    match (x.tasks.filter fun t => t.rt = a).findSome? x.dropFault with
    | some e => .error e
    | none =>
      .ok (.unit, { x.free a with tasks := x.tasks.map fun t => if t.rt = a then { t with state := .over } else t })

/-- `hyperbee_from_storage_directory`, src/external.rs:96-117. -/
def openDir (x : CSt) (rt : Ptr) (dir : Option Bytes) : Except Ub (CRet × CSt) :=
  match x.runtimeAt rt with
  | .error e => .error e
  | .ok _ =>
    match dir.bind x.disk with
    | some core =>
      .ok (.ptr (x.give (.hyperbee (St.open core))).1, (x.give (.hyperbee (St.open core))).2)
    | none => .ok (.ptr .null, x)

/-- `close_hyperbee`, src/external.rs:81-85. -/
def closeHyperbee (x : CSt) (p : Ptr) : Except Ub (CRet × CSt) :=
  match x.hyperbeeAt p with
  | .error e => .error e
  | .ok (a, _) => .ok (.unit, x.free a)

/-- `hb_get`, src/external.rs:124-150.  `slice::from_raw_parts` (src/external.rs:119-122) must not be given
null, not even for the empty slice. -/
def get (x : CSt) (rt hb : Ptr) (key : Option Bytes) : Except Ub (CRet × CSt) :=
  match x.runtimeAt rt, x.hyperbeeAt hb, key with
  | .error e, _, _ => .error e
  | _, .error e, _ => .error e
  | _, _, none => .error .null
  | .ok rt, .ok (hb, _), some key => .ok (.code 0, { x with tasks := x.tasks ++ [⟨rt, hb, key, .spawned⟩] })

/-- `deallocate_rust_string`, src/external.rs:41-44. -/
def freeString (x : CSt) (p : Ptr) : Except Ub (CRet × CSt) :=
  match x.object p with
  | .ok (a, .string _) => .ok (.unit, x.free a)
  | .ok _ => .error .kind
  | .error e => .error e

/-- `deallocate_rust_buffer`, src/external.rs:46-52.  `Vec::from_raw_parts` of length and capacity 0 frees
nothing. -/
def freeBuffer (x : CSt) (p : Ptr) (len : Nat) : Except Ub (CRet × CSt) :=
  if p = .empty ∧ len = 0 then .ok (.unit, x)
  else
    match x.object p with
    | .ok (a, .buffer v) => if len = v.length then .ok (.unit, x.free a) else .error .layout
    | .ok _ => .error .kind
    | .error e => .error e

/-- What the task does with the result of the get, src/external.rs:137-147. -/
def finish (x : CSt) (r : Reply) : CRet × CSt :=
  match r with
  | .got (some (seq, some value)) =>
    let v := x.giveVec value
    let m := v.2.give (.string [])
    (.called 0 m.1 seq v.1 value.length, m.2)
  | _ => (.panicked, x)

/-- Put a task into another state. -/
def setTask (x : CSt) (i : Nat) (t : GetTask) (s : GetState) : CSt :=
  { x with tasks := x.tasks.set i { t with state := s } }

/-- Task number `i` is given a turn: its first poll, a step of the get, or the end (after the get has
returned the database is not touched any more). -/
def turn (x : CSt) (i : Nat) : Except Ub (CRet × CSt) :=
  match x.tasks[i]? with
  | none => .ok (.unit, x)
  | some t =>
    match t.state with
    | .over => .ok (.unit, x)
    | .spawned =>
      match x.hyperbeeAt (.cell t.hb) with
      | .error e => .error e
      | .ok _ => .ok (.unit, x.setTask i t (.asking (Prog.exec (.get t.key))))
    | .asking (.step y k) =>
      match x.hyperbeeAt (.cell t.hb) with
      | .error e => .error e
      | .ok (_, s) =>
        .ok (.unit, { x with heap := x.heap.set t.hb (some (.hyperbee (y.run s).2)) }.setTask i t
          (.asking (k (y.run s).1)))
    | .asking (.pure r) => .ok ((x.finish r).1, (x.finish r).2.setTask i t .over)
    | .asking (.throw _) => .ok (.panicked, x.setTask i t .over)

/-- One action. -/
def act (x : CSt) : CAct → Except Ub (CRet × CSt)
  | .initRuntime ok => .ok (x.initRuntime ok)
  | .closeRuntime p => x.closeRuntime p
  | .openDir rt dir => x.openDir rt dir
  | .closeHyperbee p => x.closeHyperbee p
  | .get rt hb key => x.get rt hb key
  | .freeString p => x.freeString p
  | .freeBuffer p len => x.freeBuffer p len
  | .turn i => x.turn i

/-- A run: what came of the actions up to the first that is undefined, and the state, or what went
wrong. -/
def run (x : CSt) : List CAct → List CRet × Except Ub CSt
  | [] => ([], .ok x)
  | a :: as =>
    match x.act a with
    | .error e => ([], .error e)
    | .ok (r, x') => (r :: (x'.run as).1, (x'.run as).2)

end CSt

end Hyperbee
