import Verif.Spec
/-!
# Making a write again
-/

namespace Hyperbee

/-- The plain call that makes a write. -/
def Write.again : Write → Cmd
  | .set k v => .put k v
  | .clear k => .del k

end Hyperbee
