import Verif.Model.Crowd
/-!
# Calls through several handles: when they keep apart
-/

namespace Hyperbee

/-- Calls, each through some handle, as futures (src/hb.rs:45-187). -/
def flights (cs : List (Nat × Cmd)) : List (Nat × Prog Reply) := cs.map fun x => (x.1, Prog.exec x.2)

/-- The future has not returned yet. -/
def Prog.inFlight : Prog α → Bool
  | .step _ _ => true
  | _ => false

/-- While a call is under way (it has taken its first step, and has not returned), no other call takes
a step on its handle, and no other call appends to the core.  `begun`: the calls that have taken a step. -/
def World.apart (begun : List Nat) : List Nat → List (Nat × Prog Reply) → World → Bool
  | [], _, _ => true
  | i :: is, ps, w =>
    match ps[i]? with
    | none => World.apart begun is ps w
    | some (h, p) =>
      begun.all (fun j => j == i ||
        match ps[j]? with
        | some (h', q) => !q.inFlight || (h' != h && (World.next h p w).2.core == w.core)
        | none => true) &&
      World.apart (i :: begun) is (ps.set i (h, (World.next h p w).1)) (World.next h p w).2

/-- While a call is under way, no other takes a step on its handle, unless both only read; and while a call
that is to write is under way, no other appends to the core.  `begun`: the calls that have taken a step. -/
def World.orderly (cs : List (Nat × Cmd)) (begun : List Nat) : List Nat → List (Nat × Prog Reply) → World → Bool
  | [], _, _ => true
  | i :: is, ps, w =>
    match ps[i]?, cs[i]? with
    | some (h, p), some (_, c) =>
      begun.all (fun j => j == i ||
        match ps[j]?, cs[j]? with
        | some (h', q), some (_, c') => !q.inFlight || (c.looks && c'.looks) ||
            (h' != h && (c'.looks || (World.next h p w).2.core == w.core))
        | _, _ => true) &&
      World.orderly cs (i :: begun) is (ps.set i (h, (World.next h p w).1)) (World.next h p w).2
    | _, _ => World.orderly cs begun is ps w

end Hyperbee
