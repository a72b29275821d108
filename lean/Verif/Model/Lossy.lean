import Verif.Model.Async
/-!
# Appends that fail

`core.append(value).await` (src/blocks.rs:94-96) can fail at any time and work again the next time.
It can fail before the block was stored, or after: the error is returned though the core has the
block.  Here any of the steps in which an operation appends a block may fail in either way, the
others take their course.
-/

namespace Hyperbee

/-- How appending fails: the block was not stored, or it was. -/
inductive Loss where
  | refused
  | stored
  deriving DecidableEq, Repr

/-- What a step does if appending fails in it: it returns `HyperbeeError::HypercoreError`, and has
stored the block or not (src/blocks.rs:94-96); `none` for steps that append nothing. -/
def Atom.lose : Atom β → Loss → Option (M β)
  | .coreAppend _, .refused => some (Hyperbee.throw .core)
  | .coreAppend b, .stored => some fun s => (.error .core, (Hyperbee.coreAppend b s).2)
  | .under _ _ x, l => x.lose l
  | _, _ => none

/-- Run to the end; `ls` says for one step after another whether it fails (a step that appends
nothing cannot), and no step after the last of these does. -/
def Prog.lossy : Prog α → List (Option Loss) → M α
  | .pure a, _ => fun s => (.ok a, s)
  | .throw e, _ => fun s => (.error e, s)
  | .step x k, ls => fun s =>
    match ls.head?.join.bind x.lose with
    | some m => (k (m s).1).lossy ls.tail (m s).2
    | none => (k (x.run s).1).lossy ls.tail (x.run s).2

/-- One call through a handle, src/hb.rs:45-187, some appends failing. -/
def execLossy (ls : List (Option Loss)) (c : Cmd) (s : St) : Reply × St :=
  match c with
  | .reopen => exec .reopen s
  | c =>
    match (Prog.exec c).lossy ls s with
    | (.ok r, t) => (r, t)
    | (.error e, t) => (.error e, t)

/-- Calls one after another, some appends failing in each: the replies and the state at the end. -/
def runLossy : List (Cmd × List (Option Loss)) → St → List Reply × St
  | [], s => ([], s)
  | (c, ls) :: cs, s =>
    let (r, t) := execLossy ls c s
    let (rs, u) := runLossy cs t
    (r :: rs, u)

/-- The same for a client that opens the database anew (src/hb.rs:45-57) after every call that
returned the core's error. -/
def runCareful : List (Cmd × List (Option Loss)) → St → List Reply × St
  | [], s => ([], s)
  | (c, ls) :: cs, s =>
    let (r, t) := execLossy ls c s
    let t := if r = .error .core then (exec .reopen t).2 else t
    let (rs, u) := runCareful cs t
    (r :: rs, u)

end Hyperbee
