import Verif.Model.Session
/-!
# Reading page by page

A client that reads a range page by page: a traversal (src/hb.rs:133-138) is polled for a while and
dropped; the next one begins behind the last key seen, with the bound of the builder
(src/traverse.rs:97-139) set to that key and made exclusive.  Between pages any calls are made.
-/

namespace Hyperbee

/-- The builder for the page behind the key, src/traverse.rs:97-139. -/
def nextPage (b : TraverseConfigBuilder) (k : Bytes) : TraverseConfigBuilder :=
  if b.reversed = some true then { b with maxValue := some (.finite k), maxInclusive := some false }
  else { b with minValue := some (.finite k), minInclusive := some false }

/-- The entries a page has yielded. -/
def Reply.entries : Reply → List KeyValueData
  | .items xs _ => xs.filterMap Except.toOption
  | _ => []

/-- Read one page after another; before each page some calls are made, and its stream is polled once
per element of the list of booleans. -/
def paging (b : TraverseConfigBuilder) : List (List Cmd × List Bool) → St → List Reply
  | [], _ => []
  | (cs, sched) :: ps, s =>
    let (r, t) := exec (.traverse b sched) (runSt cs s)
    let b' := match r.entries.getLast? with
      | some e => nextPage b e.key
      | none => b
    r :: paging b' ps t

end Hyperbee
