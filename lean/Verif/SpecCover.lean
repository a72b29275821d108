import Verif.Spec
/-!
# What a traversal covers whose configuration the builder has not seen
-/

namespace Hyperbee

/-- The keys a traversal covers: those in the interval described and, going forwards, the lower bound
if it is inclusive, even where it lies above the upper bound. -/
def Covers (conf : TraverseConfig) (k : Bytes) : Prop :=
  InRange conf k ∨ (conf.reversed = false ∧ conf.minInclusive = true ∧ conf.minValue = .finite k)

/-- The bounds are the wrong way round: the lower one is included in the range, but lies above the
upper one (or equals it, and that is not included). -/
def Crossed (conf : TraverseConfig) : Prop :=
  ∃ lo, conf.minValue = .finite lo ∧ conf.minInclusive = true ∧ ¬ BelowMax conf.maxValue conf.maxInclusive lo

end Hyperbee
