import Verif.SpecPaging
import Verif.Model.Prefixed
/-!
# Reading a sub-database page by page
-/

namespace Hyperbee

/-- Both bounds are given, and as keys. -/
def TwoKeys (b : TraverseConfigBuilder) : Prop := ∃ lo hi, b.minValue = some (.finite lo) ∧ b.maxValue = some (.finite hi)

/-- Nothing is stored that an open bound would take for the sub-database's: every stored key that begins with
the prefix goes on with the separator.  The separator has a byte; so has the prefix, and its last is not 255. -/
def Db.Clean (d : Db) (p : Prefixed) : Prop :=
  p.sep ≠ [] ∧ (∃ last, p.pre.getLast? = some last ∧ last ≠ 255) ∧
  ∀ x, d.map x ≠ none → p.pre <+: x → p.pre ++ p.sep <+: x

end Hyperbee
