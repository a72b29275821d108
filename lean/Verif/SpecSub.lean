import Verif.Model.Prefixed
import Verif.SpecTrouble
/-!
# What traversals of sub-databases are about
-/

namespace Hyperbee

/-- The keys of the whole database that a traversal of a sub-database passes over.  A bound that was
given is put after prefix and separator; a bound that was not given is taken from the prefix
alone. -/
def Passes (p : Prefixed) (conf : TraverseConfig) (k : Bytes) : Prop :=
  (match conf.minValue with
    | .finite lo => p.pre ++ p.sep ++ lo < k ∨ conf.minInclusive = true ∧ k = p.pre ++ p.sep ++ lo
    | .infinite _ => p.pre < k ∨ k = p.pre) ∧
  (match conf.maxValue with
    | .finite hi => k < p.pre ++ p.sep ++ hi ∨ conf.maxInclusive = true ∧ k = p.pre ++ p.sep ++ hi
    | .infinite _ => k = p.pre ∨ p.pre <+: k ∧ ∃ last, p.pre.getLast? = some last ∧ last ≠ 255)

/-- The bounds do not cross when they are put together.  They do for an inclusive lower bound and no upper
one, under a prefix that is empty or ends in 255; and for everything below the empty key, where there is no
separator. -/
def Uncrossed (p : Prefixed) (conf : TraverseConfig) : Prop :=
  (∀ lo i, conf.minValue = .finite lo → conf.maxValue = .infinite i → conf.minInclusive = true →
    (∃ last, p.pre.getLast? = some last ∧ last ≠ 255) ∨ p.sep ++ lo = []) ∧
  (∀ i, conf.minValue = .infinite i → conf.maxValue = .finite [] → p.sep = [] → conf.maxInclusive = true)

/-- How many bytes prefix and separator have. -/
def Prefixed.len (p : Prefixed) : Nat := p.pre.length + p.sep.length

/-- The write as it goes to the database: with prefix and separator before the key. -/
def Write.via : Option Prefixed → Write → Write
  | none, w => w
  | some p, .set k v => .set (p.pre ++ p.sep ++ k) v
  | some p, .clear k => .clear (p.pre ++ p.sep ++ k)

/-- What a call has written, by its reply. -/
def effectVia (x : Option Prefixed × Cmd) (r : Reply) : Option Write := (effect x.2 r).map (Write.via x.1)

/-- The item without so many bytes of its key. -/
def Prefixed.cutItem (p : Prefixed) : Except Err KeyValueData → Except Err KeyValueData
  | .error e => .error e
  | .ok e => .ok { e with key := e.key.drop p.len }

/-- The entries of the whole database that the traversal passes over, in order. -/
def PassedOver (d : Db) (p : Prefixed) (conf : TraverseConfig) (all : List KeyValueData) : Prop :=
  (if conf.reversed then all.reverse else all).Pairwise (fun a b => a.key < b.key) ∧
  ∀ e, e ∈ all ↔ d.entry e.key = some e ∧ Passes p conf e.key

/-- What a traversal of the sub-database may come to when `ts` go wrong. -/
inductive SubWalked (d : Db) (p : Prefixed) (b : TraverseConfigBuilder) (ts : List (Option Trouble)) : Option Reply → Prop where
  /-- The configuration is not accepted. -/
  | refused {e : Err} : b.build = .error e → SubWalked d p b ts (some (.error e))
  /-- There is nothing in the database. -/
  | empty {conf : TraverseConfig} : b.build = .ok conf → d.version ≤ 1 → SubWalked d p b ts (some (.error .noRoot))
  /-- It was dropped, or the root could not be read. -/
  | failed {r : Option Reply} : Excuse ts r → SubWalked d p b ts r
  /-- Its items account for the entries passed over, the keys of these being long enough to be cut, with an
  error in the place of every gap, and to the end if the stream has ended. -/
  | items {conf : TraverseConfig} {all rest : List KeyValueData} {ys : List (Except Err KeyValueData)} {fin : Bool} :
      b.build = .ok conf → PassedOver d p conf all → Account ys all rest →
      (∀ e, .error e ∈ ys → GapErr e ∧ ∃ f, some (.read f) ∈ ts) → (∀ e, .ok e ∈ ys → p.len ≤ e.key.length) →
      (fin = true → rest = []) → SubWalked d p b ts (some (.items (ys.map p.cutItem) fin))
  /-- It came to an entry whose key was too short to be cut, and panicked. -/
  | short {conf : TraverseConfig} {all rest : List KeyValueData} {ys : List (Except Err KeyValueData)} {e : KeyValueData} :
      b.build = .ok conf → PassedOver d p conf all → Account (ys ++ [.ok e]) all rest →
      (∀ e, .error e ∈ ys → GapErr e ∧ ∃ f, some (.read f) ∈ ts) → (∀ e, .ok e ∈ ys → p.len ≤ e.key.length) →
      e.key.length < p.len → SubWalked d p b ts (some (.error (.panic "prefixed.rs:171 key.drain(..len_drain)")))
  /-- It could not read where to begin in a node, was polled again, and panicked. -/
  | resumed {f : Fault} : some (.read f) ∈ ts →
      SubWalked d p b ts (some (.error (.panic "traverse.rs:402 `async fn` resumed after completion")))

end Hyperbee
