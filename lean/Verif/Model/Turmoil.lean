import Verif.Model.Trouble
import Verif.Model.Crowd
/-!
# Calls that overlap while things go wrong

`Model/Crowd` overlaps calls through several handles, `Model/Trouble` lets reads and appends fail in one
call at a time.  Here calls overlap through several handles, on the database itself and through
sub-databases, and in each of their steps a read or an append may fail; a future that is dropped gets no
further steps.

`Flight.pollTroubled` is the same for the calls through one handle, with the locks of the nodes.
-/

namespace Hyperbee

/-- One step of a program, in which `o` goes wrong if it can (src/blocks.rs:76-96).  `dropped` means that
there is no step. -/
def Prog.nextTroubled (o : Option Trouble) : Prog α → St → Prog α × St
  | .pure a, s => (.pure a, s)
  | .throw e, s => (.throw e, s)
  | .step x k, s =>
    if o = some .dropped then (.step x k, s)
    else
      match o.bind x.trouble with
      | some m => (k (m s).1, (m s).2)
      | none => (k (x.run s).1, (x.run s).2)

/-- Take one step after another, in which this goes wrong. -/
def Prog.afterTroubled : List (Option Trouble) → Prog α → St → Prog α × St
  | [], p, s => (p, s)
  | o :: ts, p, s => afterTroubled ts (p.nextTroubled o s).1 (p.nextTroubled o s).2

/-- Let program number `i` take one step, on its handle, in which `o` goes wrong, for each `(i, o)` of the
schedule in turn. -/
def World.turmoil : List (Nat × Option Trouble) → List (Nat × Prog α) → World → List (Nat × Prog α) × World
  | [], ps, w => (ps, w)
  | (i, o) :: is, ps, w =>
    match ps[i]? with
    | none => World.turmoil is ps w
    | some (h, p) =>
      World.turmoil is (ps.set i (h, (p.nextTroubled o (w.at h)).1)) (w.set h (p.nextTroubled o (w.at h)).2)

/-- Calls before their first step, each with its handle, on the database itself or through a
sub-database. -/
def flightsVia (cs : List (Nat × Option Prefixed × Cmd)) : List (Nat × Prog Reply) :=
  cs.map fun x => (x.1, Prog.execVia x.2)

namespace Flight

/-- Call number `i` is polled, and `o` goes wrong with its step, if it can.  When the future is dropped
instead, its guards are released and its request for a lock is withdrawn (tokio's `RwLock`), and it
replies nothing: it is `.throw` from then on, in which no call ends of itself. -/
def pollTroubled (w : Flight α) (i : Nat) (o : Option Trouble) : Flight α :=
  match w.calls[i]? with
  | some (.step x k) =>
    if o = some .dropped then ⟨w.calls.set i (.throw .core), w.st, w.queue.filter (· != i)⟩
    else if w.grants i (.step x k) then
      ⟨w.calls.set i ((Prog.step x k).nextTroubled o w.st).1, ((Prog.step x k).nextTroubled o w.st).2,
        w.queue.filter (· != i)⟩
    else if i ∈ w.queue then w
    else { w with queue := w.queue ++ [i] }
  | _ => w

/-- Poll the calls in the order of the schedule, with what goes wrong. -/
def runTroubled (sched : List (Nat × Option Trouble)) (w : Flight α) : Flight α :=
  sched.foldl (fun w x => w.pollTroubled x.1 x.2) w

end Flight

end Hyperbee
