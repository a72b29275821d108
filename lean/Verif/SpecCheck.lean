import Verif.SpecTree
/-!
# What the check of the test suite looks at

src/test/mod.rs, in terms of stored trees: nothing here refers to handles or to how the check goes
about it.
-/

namespace Hyperbee

/-- What is checked of a node below the top: its size, the number of its children, the order of its
keys, and that each key lies between the first keys of the children left and right of it. -/
structure NodeChecked (u : STree) : Prop where
  least : 4 ≤ u.keys.length
  most : u.keys.length ≤ 8
  children : u.kids = [] ∨ u.kids.length = u.keys.length + 1
  keys : u.keys.Pairwise fun a b => a.2 < b.2
  left : ∀ (i : Nat) (t : STree) (f k : Nat × Bytes), u.kids[i]? = some t → t.keys.head? = some f → u.keys[i]? = some k → f.2 < k.2
  right : ∀ (i : Nat) (t : STree) (f k : Nat × Bytes), u.kids[i + 1]? = some t → t.keys.head? = some f → u.keys[i]? = some k →
    k.2 < f.2

/-- What is checked of a tree: of the top only its size and the number of its children. -/
structure Checked (t : STree) : Prop where
  top : t.kids ≠ [] → 1 ≤ t.keys.length
  most : t.keys.length ≤ 8
  children : t.kids = [] ∨ t.kids.length = t.keys.length + 1
  below : ∀ u ∈ t.proper, NodeChecked u

end Hyperbee
