import Verif.Model.Paging
/-!
# Reading page by page
-/

namespace Hyperbee

/-- The key comes later in the order asked for. -/
def Behind (conf : TraverseConfig) (l k : Bytes) : Prop := if conf.reversed then k < l else l < k

/-- No bound is given as an infinity; there are defaults for that. -/
def FiniteBounds (b : TraverseConfigBuilder) : Prop := ∀ x, b.minValue ≠ some (.infinite x) ∧ b.maxValue ≠ some (.infinite x)

/-- The database as it is when each page is read. -/
def views : Db → List (List Cmd × List Bool) → List Db
  | _, [] => []
  | d, (cs, _) :: ps => d.after cs :: views (d.after cs) ps

/-- The page says that there is nothing more: its stream has ended, or there can be no keys behind the
last one and the configuration was refused. -/
def Reply.lastPage : Reply → Prop
  | .items _ fin => fin = true
  | .error .traverseConfigBuilder => True
  | _ => False

end Hyperbee
