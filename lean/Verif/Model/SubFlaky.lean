import Verif.Model.Flaky
import Verif.Model.SubAsync
/-!
# Reads that fail in calls through sub-databases

As in `Model/Flaky.lean`: any of the steps in which a call fetches a block may fail.  A sub-database
works on the tree of its database (src/hb.rs:128-131), so what a failed call leaves behind is seen by all.
-/

namespace Hyperbee

/-- One call on the database or through a sub-database, src/hb.rs:45-187 and src/prefixed.rs:58-176, some
reads failing. -/
def execFlakyVia (fs : List (Option Fault)) (x : Option Prefixed × Cmd) (s : St) : Reply × St :=
  match x.2 with
  | .reopen => exec .reopen s
  | _ =>
    match (Prog.execVia x).flaky fs s with
    | (.ok r, t) => (r, t)
    | (.error e, t) => (.error e, t)

/-- Calls one after another, some reads failing in each: the replies and the state at the end. -/
def runFlakyVia : List ((Option Prefixed × Cmd) × List (Option Fault)) → St → List Reply × St
  | [], s => ([], s)
  | (x, fs) :: xs, s =>
    let (r, t) := execFlakyVia fs x s
    let (rs, u) := runFlakyVia xs t
    (r :: rs, u)

end Hyperbee
