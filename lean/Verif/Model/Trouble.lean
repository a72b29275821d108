import Verif.Model.Flaky
import Verif.Model.Lossy
import Verif.Model.World
import Verif.Model.SubAsync
/-!
# Everything that can go wrong

Reads fail (`Model/Flaky`), appends fail before or after the block was stored (`Model/Lossy`), and the
future of a call is dropped before it has come to its end, or the process dies.  Here all of these may
happen in one history, and in one call.
-/

namespace Hyperbee

/-- What may go wrong at a step. -/
inductive Trouble where
  /-- `core.get(seq).await` fails, src/blocks.rs:76-88. -/
  | read (f : Fault)
  /-- `core.append(value).await` fails, src/blocks.rs:94-96. -/
  | append (l : Loss)
  /-- The future is dropped instead of being polled again. -/
  | dropped
  deriving DecidableEq, Repr

/-- What the step does then; `none` for steps in which nothing of the kind can go wrong. -/
def Atom.trouble (x : Atom β) : Trouble → Option (M β)
  | .read f => (x.fail f).map fun r s => (r, s)
  | .append l => x.lose l
  | .dropped => none

/-- Run until the end or until dropped (`none`); `ts` says for one step after another what goes wrong
with it, if it can, and nothing goes wrong after the last of these. -/
def Prog.troubled : Prog α → List (Option Trouble) → St → Option (Except Err α) × St
  | .pure a, _, s => (some (.ok a), s)
  | .throw e, _, s => (some (.error e), s)
  | .step x k, ts, s =>
    if ts.head?.join = some .dropped then (none, s)
    else
      match ts.head?.join.bind x.trouble with
      | some m => (k (m s).1).troubled ts.tail (m s).2
      | none => (k (x.run s).1).troubled ts.tail (x.run s).2

/-- One call through a handle, src/hb.rs:45-187; the reply is `none` if its future was dropped. -/
def execTroubled (ts : List (Option Trouble)) (c : Cmd) (s : St) : Option Reply × St :=
  match c with
  | .reopen => let (r, t) := exec .reopen s; (some r, t)
  | c =>
    match (Prog.exec c).troubled ts s with
    | (some (.ok r), t) => (some r, t)
    | (some (.error e), t) => (some (.error e), t)
    | (none, t) => (none, t)

/-- The call came to no good end: it was dropped, or returned an error. -/
def failed : Option Reply → Bool
  | none => true
  | some (.error _) => true
  | _ => false

/-- Calls one after another by a client that opens the database anew (src/hb.rs:45-57) after every call
that was dropped or returned an error. -/
def runCautious : List (Cmd × List (Option Trouble)) → St → List (Option Reply) × St
  | [], s => ([], s)
  | (c, ts) :: cs, s =>
    let (r, t) := execTroubled ts c s
    let t := if failed r then (exec .reopen t).2 else t
    let (rs, u) := runCautious cs t
    (r :: rs, u)

/-- The same for several clients, each with a handle of its own on the core (`Model/World`); a call through
handle `i` at a time. -/
def World.runCautious : List (Nat × Cmd × List (Option Trouble)) → World → List (Option Reply) × World
  | [], w => ([], w)
  | (i, c, ts) :: cs, w =>
    let (r, t) := execTroubled ts c (w.at i)
    let t := if failed r then (Hyperbee.exec .reopen t).2 else t
    let (rs, u) := World.runCautious cs (w.set i t)
    (r :: rs, u)

/-- One call on the database itself or through a sub-database. -/
def execTroubledVia (ts : List (Option Trouble)) (x : Option Prefixed × Cmd) (s : St) : Option Reply × St :=
  match x.2 with
  | .reopen => let (r, t) := exec .reopen s; (some r, t)
  | _ =>
    match (Prog.execVia x).troubled ts s with
    | (some (.ok r), t) => (some r, t)
    | (some (.error e), t) => (some (.error e), t)
    | (none, t) => (none, t)

/-- Several clients whose calls go to the database itself or to sub-databases. -/
def World.runCautiousVia : List (Nat × (Option Prefixed × Cmd) × List (Option Trouble)) → World → List (Option Reply) × World
  | [], w => ([], w)
  | (i, x, ts) :: xs, w =>
    let (r, t) := execTroubledVia ts x (w.at i)
    let t := if failed r then (Hyperbee.exec .reopen t).2 else t
    let (rs, u) := World.runCautiousVia xs (w.set i t)
    (r :: rs, u)

end Hyperbee
