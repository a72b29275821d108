import Verif.Model.Async
/-!
# Reads that fail

`core.get(seq).await` (src/blocks.rs:76-88) can fail, or find that the block is not there yet, at any
time, and work again the next time.  Here any of the steps in which an operation fetches a block may
fail in either way, the others take their course.
-/

namespace Hyperbee

/-- How fetching a block fails: `self.core.get(seq).await?` returns an error, or the core does not
have the block (src/blocks.rs:76-88). -/
inductive Fault where
  | io
  | missing
  deriving DecidableEq, Repr

/-- What the step returns then: `HyperbeeError::HypercoreError`, or `Ok(None)`. -/
def Fault.result : Fault → Except Err (Option BlockEntry)
  | .io => .error .core
  | .missing => .ok none

/-- What a step returns if fetching fails in it; `none` for steps that fetch nothing. -/
def Atom.fail : Atom β → Fault → Option (Except Err β)
  | .coreFetch _, f => some f.result
  | .under _ _ x, f => x.fail f
  | _, _ => none

/-- Run to the end; `fs` says for one step after another whether it fails (a step that fetches nothing
cannot), and no step after the last of these does. -/
def Prog.flaky : Prog α → List (Option Fault) → M α
  | .pure a, _ => fun s => (.ok a, s)
  | .throw e, _ => fun s => (.error e, s)
  | .step x k, fs => fun s =>
    match fs.head?.join.bind x.fail with
    | some r => (k r).flaky fs.tail s
    | none => (k (x.run s).1).flaky fs.tail (x.run s).2

/-- One call through a handle, src/hb.rs:45-187, some reads failing. -/
def execFlaky (fs : List (Option Fault)) (c : Cmd) (s : St) : Reply × St :=
  match c with
  | .reopen => exec .reopen s
  | c =>
    match (Prog.exec c).flaky fs s with
    | (.ok r, t) => (r, t)
    | (.error e, t) => (.error e, t)

/-- Calls one after another, some reads failing in each: the replies and the state at the end. -/
def runFlaky : List (Cmd × List (Option Fault)) → St → List Reply × St
  | [], s => ([], s)
  | (c, fs) :: cs, s =>
    let (r, t) := execFlaky fs c s
    let (rs, u) := runFlaky cs t
    (r :: rs, u)

end Hyperbee
