import Verif.Model.Trouble
import Verif.SpecFlaky
/-!
# What may become of a call when things go wrong
-/

namespace Hyperbee

/-- A put, with or without compare and swap. -/
def Cmd.isPut : Cmd → Prop
  | .put _ _ => True
  | .putCas _ _ _ => True
  | _ => False

/-- The call may change what is stored under the key. -/
def Cmd.mayChange (k : Bytes) : Cmd → Prop
  | .put k' _ => k' = k
  | .putCas k' _ _ => k' = k
  | .del k' => k' = k
  | .delCas k' _ => k' = k
  | _ => False

/-- The call has no reply, or an error for one, and one of the troubles is the reason. -/
inductive Excuse (ts : List (Option Trouble)) : Option Reply → Prop where
  | dropped : some .dropped ∈ ts → Excuse ts none
  | read {f : Fault} {e : Err} : some (.read f) ∈ ts → ReadErr e → Excuse ts (some (.error e))
  | append : some (.append .refused) ∈ ts → Excuse ts (some (.error .core))

/-- What may become of a call on the database `d` when `ts` go wrong: the reply, and the database after
it. -/
inductive Became (d : Db) (c : Cmd) (ts : List (Option Trouble)) : Option Reply → Db → Prop where
  /-- It did what it does when nothing goes wrong. -/
  | made {r : Reply} : d.Returns c r → Became d c ts (some r) (d.next c)
  /-- It failed without effect. -/
  | without {r : Option Reply} : Excuse ts r → Became d c ts r d
  /-- It took effect, but the error of an append that did store the block was returned. -/
  | unheard : some (.append .stored) ∈ ts → Became d c ts (some (.error .core)) (d.next c)
  /-- It was the first put of an empty database and failed, but created the header. -/
  | header {r : Option Reply} : Excuse ts r ∨ (some (.append .stored) ∈ ts ∧ r = some (.error .core)) →
      d.version = 0 → c.isPut → Became d c ts r (d.next (.createHeader none))
  /-- It was a traversal that met blocks it could not read: its items account for the listing of the
  database, with an error in the place of every gap, and to the end if the stream has ended. -/
  | walked {f : Fault} {b : TraverseConfigBuilder} {sched : List Bool} {conf : TraverseConfig}
      {full rest : List KeyValueData} {xs : List (Except Err KeyValueData)} {fin : Bool} :
      some (.read f) ∈ ts → c = .traverse b sched → b.build = .ok conf → IsListing d conf full →
      Account xs full rest → (∀ e, .error e ∈ xs → GapErr e) → (fin = true → rest = []) →
      Became d c ts (some (.items xs fin)) d
  /-- It was a traversal that could not read where to begin in a node, was polled again, and panicked. -/
  | resumed {f : Fault} {b : TraverseConfigBuilder} {sched : List Bool} :
      some (.read f) ∈ ts → c = .traverse b sched →
      Became d c ts (some (.error (.panic "traverse.rs:402 `async fn` resumed after completion"))) d

/-- The same for calls one after another, each on the database the one before it left. -/
inductive AllBecame : Db → List (Cmd × List (Option Trouble)) → List (Option Reply) → Db → Prop where
  | nil {d : Db} : AllBecame d [] [] d
  | cons {d d' d'' : Db} {c : Cmd} {ts : List (Option Trouble)} {cs : List (Cmd × List (Option Trouble))}
      {r : Option Reply} {rs : List (Option Reply)} :
      Became d c ts r d' → AllBecame d' cs rs d'' → AllBecame d ((c, ts) :: cs) (r :: rs) d''

end Hyperbee
