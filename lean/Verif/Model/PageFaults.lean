import Verif.Model.Flaky
import Verif.Model.Paging
/-!
# Reading page by page while reads fail

As in `Model/Paging.lean`, but any of the reads of a page may fail.  The stream of a page then yields an
error in the place of some entries and goes on (src/traverse.rs:311-448), so the client has to decide
behind which key the next page begins.
-/

namespace Hyperbee

/-- What is left of a page if it is cut off before its first error; it has not ended then. -/
def Reply.untilError : Reply → Reply
  | .items xs fin => .items (xs.takeWhile fun x => x.toOption.isSome) (fin && xs.all fun x => x.toOption.isSome)
  | r => r

/-- Read one page after another, some reads of each failing (src/hb.rs:133-138, src/traverse.rs:97-139); of
each page the client keeps what `keep` leaves, and goes on behind the last key of that.  A page that fails
altogether is asked for again. -/
def pagingFlaky (keep : Reply → Reply) (b : TraverseConfigBuilder) : List (List Cmd × List Bool × List (Option Fault)) → St → List Reply
  | [], _ => []
  | (cs, sched, fs) :: ps, s =>
    let (r, t) := execFlaky fs (.traverse b sched) (runSt cs s)
    let b' := match (keep r).entries.getLast? with
      | some e => nextPage b e.key
      | none => b
    keep r :: pagingFlaky keep b' ps t

end Hyperbee
