import Verif.Model.Async
/-!
# Calls behind a readers–writer lock

The methods of `Hyperbee` take the lock of the tree for reading, also those that write
(`self.tree.read().await.put(..)`, src/hb.rs:79-125), so that calls overlap as they please.  Here the
calls that write take such a lock for writing: `self.tree.write().await` in their place, or a client
that keeps its `Hyperbee` in an `RwLock` of its own.
-/

namespace Hyperbee

/-- The calls that take the lock for writing: `put`, `put_compare_and_swap`, `del`,
`del_compare_and_swap`, `create_header`, src/hb.rs:51-56 and 79-125. -/
def Cmd.exclusive : Cmd → Bool
  | .put _ _ | .putCas _ _ _ | .del _ | .delCas _ _ | .createHeader _ => true
  | _ => false

/-- How far a call has come: it has not got the lock, it has it, it has returned, or its future was
dropped. -/
inductive Phase where
  | waiting
  | running (p : Prog Reply)
  | finished (r : Reply)
  | dropped

/-- The call holds the lock. -/
def Phase.holds : Phase → Bool
  | .running _ => true
  | _ => false

/-- Calls on one handle, behind the lock. -/
structure Gate where
  calls : List (Cmd × Phase)
  st : St
  /-- the calls that have returned, and their replies, in the order in which they did -/
  log : List (Cmd × Reply)

namespace Gate

/-- No call keeps the lock from `c`.  (Waiting calls do not.  With a lock that lets nobody
overtake a waiting writer fewer polls succeed, which is a run with those polls left out.) -/
def free (g : Gate) (c : Cmd) : Bool :=
  g.calls.all fun q => !(q.2.holds && (c.exclusive || q.1.exclusive))

/-- Call number `i` is polled: it takes the lock if that is free, or takes one step, or returns, which
sets the lock free.  (`Prog.exec` does not fail: it returns errors as replies.) -/
def poll (g : Gate) (i : Nat) : Gate :=
  match g.calls[i]? with
  | some (c, .waiting) => if g.free c then { g with calls := g.calls.set i (c, .running (Prog.exec c)) } else g
  | some (c, .running (.step x k)) =>
    { g with calls := g.calls.set i (c, .running (k (x.run g.st).1)), st := (x.run g.st).2 }
  | some (c, .running (.pure r)) => { g with calls := g.calls.set i (c, .finished r), log := g.log ++ [(c, r)] }
  | _ => g

/-- The future of call number `i` is dropped, which sets the lock free if it had it. -/
def drop (g : Gate) (i : Nat) : Gate :=
  match g.calls[i]? with
  | some (_, .finished _) => g
  | some (c, _) => { g with calls := g.calls.set i (c, .dropped) }
  | none => g

/-- What happens next. -/
inductive Turn where
  | poll (i : Nat)
  | drop (i : Nat)
  deriving DecidableEq

def turn (g : Gate) : Turn → Gate
  | .poll i => g.poll i
  | .drop i => g.drop i

def run (ts : List Turn) (g : Gate) : Gate := ts.foldl turn g

/-- No call that writes is dropped while it has the lock. -/
def careful : List Turn → Gate → Bool
  | [], _ => true
  | t :: ts, g =>
    (match t with
      | .drop i =>
        match g.calls[i]? with
        | some (c, .running _) => !c.exclusive
        | _ => true
      | .poll _ => true) && careful ts (g.turn t)

/-- The calls are made on the state. -/
def start (cs : List Cmd) (s : St) : Gate := ⟨cs.map fun c => (c, .waiting), s, []⟩

/-- The calls that have returned, with their replies, in the order in which they were made. -/
def returned (g : Gate) : List (Cmd × Reply) :=
  g.calls.filterMap fun q => match q.2 with
    | .finished r => some (q.1, r)
    | _ => none

/-- Some call has the lock for writing. -/
def writing (g : Gate) : Bool := g.calls.any fun q => q.2.holds && q.1.exclusive

end Gate

end Hyperbee
