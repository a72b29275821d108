import Verif.Model.SubMachine
/-!
# What fits a machine

Rust keeps no vector of `2 ^ (w - 1)` bytes or more when `usize` has `w` bits.  The elements of the
vectors in question (keys, children, nodes of a block, steps of a path) take at least four bytes each, so
such a vector has fewer than `2 ^ (w - 3)` elements.
-/

namespace Hyperbee

/-- The number of elements that no vector reaches. -/
def Machine.room (μ : Machine) : Nat := 2 ^ (μ.width - 3)

/-- What a step reports fits: vectors have fewer than `B` elements, and no path down a tree gets longer. -/
def Atom.Fits (B : Nat) : {β : Type} → Atom β → Except Err β → Prop
  | _, .readNode _ => fun r => match r with
    | .ok n => n.keys.length < B ∧ n.children.length < B
    | .error _ => True
  | _, .cacheGet _ => fun r => match r with
    | .ok (some e) => e.nodes.length < B
    | _ => True
  | _, .coreFetch _ => fun r => match r with
    | .ok (some e) => e.nodes.length < B
    | _ => True
  | _, .descentFuel => fun r => match r with
    | .ok n => n < B
    | .error _ => True
  | _, .under _ _ x => fun r => x.Fits B r
  | _, _ => fun _ => True

/-- All that is reported to a call fits. -/
def Prog.Fits (B : Nat) : Prog α → St → Prop
  | .step x k, s => x.Fits B (x.run s).1 ∧ (k (x.run s).1).Fits B (x.run s).2
  | _, _ => True

/-- What is reported to the next step of a call fits. -/
def Prog.NextFits (B : Nat) : Prog α → St → Prop
  | .step x _, s => x.Fits B (x.run s).1
  | _, _ => True

/-- All that is reported to overlapping calls fits. -/
def Prog.AllFit (B : Nat) : List Nat → List (Prog α) → St → Prop
  | [], _, _ => True
  | i :: is, ps, s =>
    match ps[i]? with
    | none => Prog.AllFit B is ps s
    | some p => p.NextFits B s ∧ Prog.AllFit B is (ps.set i (p.next s).1) (p.next s).2

/-- All that is reported to the calls of a history fits. -/
def HistoryFits (B : Nat) : List Cmd → St → Prop
  | [], _ => True
  | c :: cs, s => (Prog.exec c).Fits B s ∧ HistoryFits B cs (exec c s).2

/-- The vectors of a state fit. -/
structure St.Roomy (B : Nat) (s : St) : Prop where
  /-- the nodes in memory -/
  nodes : ∀ n ∈ s.heap, n.keys.length < B ∧ n.children.length < B
  /-- the cached blocks -/
  cached : ∀ q e, s.cache q = some e → e.nodes.length < B
  /-- the blocks that may be fetched -/
  fetched : ∀ q e t, getFromCore q s = (.ok (some e), t) → e.nodes.length < B
  /-- the whole core, in blocks and bytes -/
  core : stepBound s.core < B

/-- The panics on a node number that is out of range, src/blocks.rs:170 and 224.  The number is one that was
read, and need not fit a `usize`. -/
def offsetPanics : List String :=
  ["blocks.rs:224 offset *should* always point to a real node", "blocks.rs:170 nodes[old_offset]"]

/-- The key that a call through a sub-database makes up has fewer than `L` bytes. -/
def Prefixed.Short (L : Nat) (p : Prefixed) : Cmd → Prop
  | .get k | .put k _ | .putCas k _ _ | .del k | .delCas k _ => (p.pre ++ p.sep ++ k).length < L
  | .traverse b _ => (p.pre ++ p.sep).length < L ∧ ∀ conf, b.build = .ok conf →
      (∀ k, conf.minValue = .finite k → (p.pre ++ p.sep ++ k).length < L) ∧
      ∀ k, conf.maxValue = .finite k → (p.pre ++ p.sep ++ k).length < L
  | _ => True

/-- The same for any call. -/
def ShortVia (L : Nat) (x : Option Prefixed × Cmd) : Prop :=
  match x.1 with
  | none => True
  | some p => p.Short L x.2

/-- All that is reported to the calls of a history fits. -/
def HistoryFitsVia (B L : Nat) : List (Option Prefixed × Cmd) → St → Prop
  | [], _ => True
  | x :: xs, s => ShortVia L x ∧ (Prog.execVia x).Fits B s ∧ HistoryFitsVia B L xs (execVia x s).2

end Hyperbee
