import Verif.Model.World
import Verif.Model.Async
/-!
# Calls through several handles that overlap

`World` runs one call at a time, `Prog.interleave` overlaps calls through one handle.  Here calls
overlap that go through different handles on one core: the core is behind a lock of its own
(`core: SharedCore`, src/blocks.rs:23-29, taken for one `get`, `append` or `info` at a time), caches
and nodes belong to a handle.
-/

namespace Hyperbee

/-- One step of a program that runs on handle `h`. -/
def World.next (h : Nat) (p : Prog α) (w : World) : Prog α × World :=
  ((p.next (w.at h)).1, w.set h (p.next (w.at h)).2)

/-- Let program number `i` take one step, on its handle, for each `i` of the schedule in turn. -/
def World.interleave : List Nat → List (Nat × Prog α) → World → List (Nat × Prog α) × World
  | [], ps, w => (ps, w)
  | i :: is, ps, w =>
    match ps[i]? with
    | none => World.interleave is ps w
    | some (h, p) => World.interleave is (ps.set i (h, (World.next h p w).1)) (World.next h p w).2

/-- Calls made one after the other: the next one is made when the one before has returned. -/
def Prog.history : List Cmd → Prog (List Reply)
  | [] => Pure.pure []
  | c :: cs => do
    let r ← Prog.exec c
    let rs ← Prog.history cs
    Pure.pure (r :: rs)

/-- What the program with number `i` has returned, if it has. -/
def World.result (x : List (Nat × Prog α) × World) (i : Nat) : Option α := x.1[i]?.bind fun p => p.2.result

/-! ## Late insertions into the cache

`Blocks::get` looks the block up, fetches it when it is missing, and puts it into the cache
(src/blocks.rs:53-72), the cache being locked for the first and for the last step only.  In between
another call can have put the block there. -/

/-- The block a step puts into the cache: `cache.insert`, src/blocks.rs:68. -/
def Atom.files : Atom β → Option Nat
  | .cacheInsert q _ => some q
  | .under _ _ x => x.files
  | _ => none

/-- The block the next step puts into the cache. -/
def Prog.files : Prog α → Option Nat
  | .step x _ => x.files
  | _ => none

/-- The next step puts a block into the cache that is there already. -/
def Prog.late (p : Prog α) (s : St) : Bool :=
  match p.files with
  | some q => (s.cache q).isSome
  | none => false

/-- Some call other than number `w` puts a block into the cache that is there already, before number
`w` has returned. -/
def Prog.overtaken (w : Nat) : List Nat → List (Prog α) → St → Bool
  | [], _, _ => false
  | i :: is, ps, s =>
    match ps[i]? with
    | none => Prog.overtaken w is ps s
    | some p =>
      ((ps[w]?.bind Prog.result).isNone && i != w && p.late s) ||
        Prog.overtaken w is (ps.set i (p.next s).1) (p.next s).2

end Hyperbee
