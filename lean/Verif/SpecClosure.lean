import Verif.Model.Closure
/-!
# What a user expects of closures

A closure makes calls; an abstract database answers them, and changes with them.
-/

namespace Hyperbee

/-- All calls a closure can come to make are of a kind. -/
def Script.All (P : Cmd → Prop) : Script → Prop
  | .answer _ => True
  | .panics => True
  | .call c k => P c ∧ ∀ r, (k r).All P

/-- The calls that change nothing. -/
def Cmd.Looks (c : Cmd) : Prop := c = .version ∨ (∃ k, c = .get k) ∨ ∃ b sched, c = .traverse b sched

/-- A closure, run against a database, can end with an answer (`none`: by panicking) and leave
another database. -/
inductive Db.Plays : Db → Script → Option Bool → Db → Prop where
  | answer (d : Db) (b : Bool) : Plays d (.answer b) (some b) d
  | panics (d : Db) : Plays d .panics none d
  | call {d d' : Db} {c : Cmd} {k : Reply → Script} {r : Reply} {o : Option Bool} :
    d.Returns c r → Plays (d.next c) (k r) o d' → Plays d (.call c k) o d'

/-- All later calls get the replies of a database. -/
def Onward (s : St) (d : Db) : Prop := ∀ cs, d.Answers cs (runReplies cs s)

end Hyperbee
