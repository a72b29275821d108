import Verif.Model.Session
/-!
# Several handles on one core

`Blocks` holds its hypercore behind a shared reference (`core: SharedCore`, src/blocks.rs:23-29), so
several `Tree`s, each with a cache of its own, can be opened on the same core.  Calls are atomic
here: one call at a time runs to its end, on whichever handle.
-/

namespace Hyperbee

/-- What belongs to one handle: its block cache and the nodes it holds. -/
structure Handle where
  cache : Nat → Option BlockEntry
  heap : List Node

/-- A handle that has read nothing yet. -/
def Handle.new : Handle := ⟨fun _ => none, []⟩

/-- One core and any number of handles on it. -/
structure World where
  core : List Bytes
  handles : Nat → Handle

/-- An empty core and fresh handles. -/
def World.init : World := ⟨[], fun _ => Handle.new⟩

/-- What handle `i` sees. -/
def World.at (w : World) (i : Nat) : St := ⟨w.core, Io.good, (w.handles i).cache, (w.handles i).heap⟩

/-- Handle `i` moves to the state `s`. -/
def World.set (w : World) (i : Nat) (s : St) : World :=
  ⟨s.core, fun j => if j = i then ⟨s.cache, s.heap⟩ else w.handles j⟩

/-- A call through handle `i`: the core it leaves is everyone's. -/
def World.exec (i : Nat) (c : Cmd) (w : World) : Reply × World :=
  let (r, s') := Hyperbee.exec c (w.at i)
  (r, w.set i s')

/-- A sequence of calls, each through some handle. -/
def World.run : List (Nat × Cmd) → World → List Reply × World
  | [], w => ([], w)
  | (i, c) :: cs, w =>
    let (r, w') := w.exec i c
    let (rs, w'') := World.run cs w'
    (r :: rs, w'')

/-- What may happen while a stream is being consumed: a poll, or a call through some handle. -/
inductive Act where
  | poll (ready : Bool)
  | call (i : Nat) (c : Cmd)

/-- A stream created through handle `h`, consumed while calls are made through this and other
handles.  As `drive`: the items, and the stream, or `none` once it has ended. -/
def World.watch (h : Nat) : List Act → List Frame → World →
    Except Err (List (Except Err KeyValueData) × Option (List Frame)) × World
  | [], fs, w => (.ok ([], some fs), w)
  | .poll r :: as, fs, w =>
    match Hyperbee.poll r fs (w.at h) with
    | (.error e, s') => (.error e, w.set h s')
    | (.ok (.ready none _, _), s') => (.ok ([], none), w.set h s')
    | (.ok (.ready (some (x, _)) _, fs'), s') =>
      match World.watch h as fs' (w.set h s') with
      | (.ok (xs, fin), w') => (.ok (x :: xs, fin), w')
      | (.error e, w') => (.error e, w')
    | (.ok (.pending _ _, fs'), s') => World.watch h as fs' (w.set h s')
  | .call i c :: as, fs, w => World.watch h as fs (w.exec i c).2

end Hyperbee
