import Verif.SpecSub
/-!
# What a traversal of a sub-database covers, whatever its configuration
-/

namespace Hyperbee

/-- The key the traversal begins at, if that is included: the lower bound with prefix and separator, or the
prefix itself where there is none. -/
def Begins (p : Prefixed) (conf : TraverseConfig) (k : Bytes) : Prop :=
  match conf.minValue with
  | .finite lo => conf.minInclusive = true ∧ k = p.pre ++ p.sep ++ lo
  | .infinite _ => k = p.pre

/-- The stored keys a traversal of the sub-database covers: those that pass, and, going forwards, the one it
begins at. -/
def SubCovers (p : Prefixed) (conf : TraverseConfig) (k : Bytes) : Prop :=
  Passes p conf k ∨ conf.reversed = false ∧ Begins p conf k

end Hyperbee
