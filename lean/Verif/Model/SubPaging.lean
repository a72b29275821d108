import Verif.Model.Paging
import Verif.Model.SubSession
/-!
# Reading a sub-database page by page

As in `Model/Paging.lean`, but the traversals are those of a `Prefixed` (src/prefixed.rs:130-177): the
next page begins behind the last key seen, as the sub-database names it, with the prefix cut off
(src/prefixed.rs:166-175).  Between pages any calls are made, on the database or through sub-databases.
-/

namespace Hyperbee

/-- Read one page of the sub-database after another; before each page some calls are made, and its stream
is polled once per element of the list of booleans.  src/prefixed.rs:130-177. -/
def pagingVia (p : Prefixed) (b : TraverseConfigBuilder) : List (List (Option Prefixed × Cmd) × List Bool) → St → List Reply
  | [], _ => []
  | (cs, sched) :: ps, s =>
    let (r, t) := p.exec (.traverse b sched) (runVia cs s).2
    let b' := match r.entries.getLast? with
      | some e => nextPage b e.key
      | none => b
    r :: pagingVia p b' ps t

end Hyperbee
