import Verif.Model.Ffi
import Verif.Props.History
import Verif.Props.Prefixed
/-!
# The bindings

Properties C37 and C46.
-/

namespace Hyperbee

/-! ## C46 -/

/-- What the Rust methods return, as the bindings should show it. -/
def Reply.shown : Reply → FfiReply
  | .version n => .version n
  | .got r => .gotten (r.map fun e => ⟨e.1, e.2⟩)
  | .put old new => .putten ⟨old, new⟩
  | .del r => .deleted r
  | .error e => .error e
  | _ => .noObject

/-- The Rust call a foreign call stands for, given the objects made so far. -/
def FfiCmd.rust (objects : List Prefixed) : FfiCmd → Option (Option Prefixed × Cmd)
  | .version => some (none, .version)
  | .get k => some (none, .get k)
  | .put k v => some (none, .put k v)
  | .delete k => some (none, .del k)
  | .sub _ _ => none
  | .subGet i k => objects[i]?.map fun p => (some p, .get k)
  | .subPut i k v => objects[i]?.map fun p => (some p, .put k v)
  | .subDelete i k => objects[i]?.map fun p => (some p, .del k)

theorem ffiReply_replyOf {m : M α} {m' : M β} {g : α → β} (hm : ∀ s, m' s = ((m s).1.map g, (m s).2))
    {f : β → FfiReply} {f' : α → Reply} (hf : ∀ a, f (g a) = (f' a).shown) (x : FfiSt) :
    ffiReply m' f x = ((replyOf m f' x.st).1.shown, { x with st := (replyOf m f' x.st).2 }) := by
  unfold ffiReply replyOf
  rw [hm]
  cases h : m x.st with
  | mk r s' => cases r with
    | ok a => simp only [Except.map, hf]
    | error e => rfl

theorem bind_pure_map {m : M α} {g : α → β} (s : St) : (m >>= fun a => (pure (g a) : M β)) s = ((m s).1.map g, (m s).2) := by
  rw [bind_run]
  cases h : m s with
  | mk r s' => cases r <;> rfl

/-- C46.  Every foreign call other than `sub` does what the Rust method does, on any state whatever
(errors and panics included), and shows the same data. -/
theorem ffi_call (x : FfiSt) (c : FfiCmd) {v : Option Prefixed × Cmd} (h : c.rust x.objects = some v) :
    ffiExec c x = ((execVia v x.st).1.shown, { x with st := (execVia v x.st).2 }) := by
  have hid : ∀ {α : Type} (m : M α) (s : St), m s = ((m s).1.map id, (m s).2) := by
    intro α m s
    cases h : m s with
    | mk r s' => cases r <;> rfl
  cases c with
  | version => cases h; exact ffiReply_replyOf (m := version) (g := id) (f' := .version) (hid _) (fun _ => rfl) x
  | get k =>
    cases h
    exact ffiReply_replyOf (m := get k) (fun s => bind_pure_map s) (fun a => by cases a <;> rfl) x
  | put k w =>
    cases h
    exact ffiReply_replyOf (m := put k w) (g := fun a => (⟨a.1, a.2⟩ : Putten)) (f' := fun a => .put a.1 a.2) (fun s => bind_pure_map s) (fun a => rfl) x
  | delete k => cases h; exact ffiReply_replyOf (m := del k) (g := id) (f' := .del) (hid _) (fun _ => rfl) x
  | sub p q => cases h
  | subGet i k =>
    simp only [FfiCmd.rust, Option.map_eq_some_iff] at h
    obtain ⟨p, hp, rfl⟩ := h
    simp only [ffiExec, ffiVia, hp]
    exact ffiReply_replyOf (m := p.get k) (fun s => bind_pure_map s) (fun a => by cases a <;> rfl) x
  | subPut i k w =>
    simp only [FfiCmd.rust, Option.map_eq_some_iff] at h
    obtain ⟨p, hp, rfl⟩ := h
    simp only [ffiExec, ffiVia, hp]
    exact ffiReply_replyOf (m := p.put k w) (g := fun a => (⟨a.1, a.2⟩ : Putten)) (f' := fun a => .put a.1 a.2) (fun s => bind_pure_map s) (fun a => rfl) x
  | subDelete i k =>
    simp only [FfiCmd.rust, Option.map_eq_some_iff] at h
    obtain ⟨p, hp, rfl⟩ := h
    simp only [ffiExec, ffiVia, hp]
    exact ffiReply_replyOf (m := p.del k) (g := id) (f' := .del) (hid _) (fun _ => rfl) x

/-- The key in the whole database a key of an object stands for. -/
def objectKey (objects : List Prefixed) (i : Nat) (k : Bytes) : Option Bytes :=
  objects[i]?.map fun p => p.pre ++ p.sep ++ k

/-- What a foreign call returns, in terms of an abstract database and the objects made so far. -/
def Db.ffi (d : Db) (objects : List Prefixed) : FfiCmd → FfiReply × Db × List Prefixed
  | .version => (.version d.version, d, objects)
  | .get k => (.gotten ((d.map k).map fun e => ⟨e.1, e.2⟩), d, objects)
  | .put k v => (.putten ⟨(d.map k).map (·.1), d.nextSeq⟩, d.write k v, objects)
  | .delete k => (.deleted ((d.map k).map (·.1)), if (d.map k).isSome then d.remove k else d, objects)
  | .sub pre sep => (.object objects.length, d, objects ++ [⟨pre, sep⟩])
  | .subGet i k =>
    match objectKey objects i k with
    | none => (.noObject, d, objects)
    | some k => (.gotten ((d.map k).map fun e => ⟨e.1, e.2⟩), d, objects)
  | .subPut i k v =>
    match objectKey objects i k with
    | none => (.noObject, d, objects)
    | some k => (.putten ⟨(d.map k).map (·.1), d.nextSeq⟩, d.write k v, objects)
  | .subDelete i k =>
    match objectKey objects i k with
    | none => (.noObject, d, objects)
    | some k => (.deleted ((d.map k).map (·.1)), if (d.map k).isSome then d.remove k else d, objects)

def Db.ffiRun : List FfiCmd → Db → List Prefixed → List FfiReply
  | [], _, _ => []
  | c :: cs, d, os => (d.ffi os c).1 :: Db.ffiRun cs (d.ffi os c).2.1 (d.ffi os c).2.2

theorem ffi_refines {x : FfiSt} {d : Db} (h : Holds x.st d) (c : FfiCmd) :
    (ffiExec c x).1 = (d.ffi x.objects c).1 ∧ Holds (ffiExec c x).2.st (d.ffi x.objects c).2.1 ∧
      (ffiExec c x).2.objects = (d.ffi x.objects c).2.2 := by
  cases hv : c.rust x.objects with
  | none =>
    cases c with
    | sub pre sep => exact ⟨rfl, h, rfl⟩
    | version => cases hv
    | get k => cases hv
    | put k v => cases hv
    | delete k => cases hv
    | subGet i k =>
      simp only [FfiCmd.rust, Option.map_eq_none_iff] at hv
      simp only [ffiExec, ffiVia, hv, Db.ffi, objectKey, Option.map_none]
      exact ⟨trivial, h, trivial⟩
    | subPut i k v =>
      simp only [FfiCmd.rust, Option.map_eq_none_iff] at hv
      simp only [ffiExec, ffiVia, hv, Db.ffi, objectKey, Option.map_none]
      exact ⟨trivial, h, trivial⟩
    | subDelete i k =>
      simp only [FfiCmd.rust, Option.map_eq_none_iff] at hv
      simp only [ffiExec, ffiVia, hv, Db.ffi, objectKey, Option.map_none]
      exact ⟨trivial, h, trivial⟩
  | some v =>
    rw [ffi_call x c hv]
    have key : ∀ cmd, execVia v x.st = exec cmd x.st → (exec cmd x.st).1.shown = (d.ffi x.objects c).1 →
        d.next cmd = (d.ffi x.objects c).2.1 → x.objects = (d.ffi x.objects c).2.2 →
        (execVia v x.st).1.shown = (d.ffi x.objects c).1 ∧ Holds (execVia v x.st).2 (d.ffi x.objects c).2.1 ∧
        x.objects = (d.ffi x.objects c).2.2 := by
      intro cmd h1 h2 h3 h4
      exact ⟨by rw [h1]; exact h2, by rw [h1, ← h3]; exact (exec_refines h cmd).2, h4⟩
    cases c with
    | version =>
      cases hv
      have := (exec_refines h .version).1
      exact key .version rfl (by rw [show (exec .version x.st).1 = _ from this]; rfl) rfl rfl
    | get k =>
      cases hv
      have := (exec_refines h (.get k)).1
      exact key (.get k) rfl (by rw [show (exec (.get k) x.st).1 = _ from this]; rfl) rfl rfl
    | put k w =>
      cases hv
      have := (exec_refines h (.put k w)).1
      exact key (.put k w) rfl (by rw [show (exec (.put k w) x.st).1 = _ from this]; rfl) rfl rfl
    | delete k =>
      cases hv
      have := (exec_refines h (.del k)).1
      exact key (.del k) rfl (by rw [show (exec (.del k) x.st).1 = _ from this]; rfl) rfl rfl
    | sub pre sep => cases hv
    | subGet i k =>
      simp only [FfiCmd.rust, Option.map_eq_some_iff] at hv
      obtain ⟨p, hp, rfl⟩ := hv
      have hk : objectKey x.objects i k = some (p.pre ++ p.sep ++ k) := by simp [objectKey, hp]
      have := (exec_refines h (.get (p.pre ++ p.sep ++ k))).1
      refine key (.get (p.pre ++ p.sep ++ k)) rfl ?_ ?_ ?_
      · rw [show (exec (.get (p.pre ++ p.sep ++ k)) x.st).1 = _ from this]; simp only [Db.ffi, hk]; rfl
      · simp only [Db.ffi, hk]; rfl
      · simp only [Db.ffi, hk]
    | subPut i k w =>
      simp only [FfiCmd.rust, Option.map_eq_some_iff] at hv
      obtain ⟨p, hp, rfl⟩ := hv
      have hk : objectKey x.objects i k = some (p.pre ++ p.sep ++ k) := by simp [objectKey, hp]
      have := (exec_refines h (.put (p.pre ++ p.sep ++ k) w)).1
      refine key (.put (p.pre ++ p.sep ++ k) w) rfl ?_ ?_ ?_
      · rw [show (exec (.put (p.pre ++ p.sep ++ k) w) x.st).1 = _ from this]; simp only [Db.ffi, hk]; rfl
      · simp only [Db.ffi, hk]; rfl
      · simp only [Db.ffi, hk]
    | subDelete i k =>
      simp only [FfiCmd.rust, Option.map_eq_some_iff] at hv
      obtain ⟨p, hp, rfl⟩ := hv
      have hk : objectKey x.objects i k = some (p.pre ++ p.sep ++ k) := by simp [objectKey, hp]
      have := (exec_refines h (.del (p.pre ++ p.sep ++ k))).1
      refine key (.del (p.pre ++ p.sep ++ k)) rfl ?_ ?_ ?_
      · rw [show (exec (.del (p.pre ++ p.sep ++ k)) x.st).1 = _ from this]; simp only [Db.ffi, hk]; rfl
      · simp only [Db.ffi, hk]; rfl
      · simp only [Db.ffi, hk]

theorem ffiRun_refines : ∀ (cs : List FfiCmd) {x : FfiSt} {d : Db}, Holds x.st d →
    (ffiRun cs x).1 = Db.ffiRun cs d x.objects
  | [], _, _, _ => rfl
  | c :: cs, x, d, h => by
    obtain ⟨h1, h2, h3⟩ := ffi_refines h c
    have := ffiRun_refines cs h2
    simp only [ffiRun, Db.ffiRun]
    rw [h1, this, h3]

/-- C46.  Every history of foreign calls on a database made by `hyperbee_from_ram` gets the replies
of the abstract database; `version` counts, `put` reports old and new number, and so on, through
the database object and through any objects made by `sub`. -/
theorem ffi_history (cs : List FfiCmd) : (ffiRun cs FfiSt.fromRam).1 = Db.ffiRun cs Db.empty [] :=
  ffiRun_refines cs init_holds

/-- A history of foreign calls. -/
def ffiDemo : List FfiCmd :=
  [.get [1], .sub [7] Ffi.defaultSubConfig, .put [1] (some [2]), .subPut 0 [1] none, .subGet 0 [1], .get [7, 0, 1],
    .put [1] none, .subDelete 0 [1], .subGet 0 [1], .delete [9], .version]

example : (ffiRun ffiDemo FfiSt.fromRam).1 = [.gotten none, .object 0, .putten ⟨none, 1⟩, .putten ⟨none, 2⟩,
    .gotten (some ⟨2, none⟩), .gotten (some ⟨2, none⟩), .putten ⟨some 1, 3⟩, .deleted (some 2), .gotten none, .deleted none,
    .version 5] := by decide +kernel

/-! ## C37 -/

/-- C37 fails: looking up an absent key, or a key stored without a value, never calls back, though
the lookup itself succeeds. -/
theorem c_get_silent : ∃ s k, Reachable s ∧ (exec (.get k) s).1 = .got none ∧ (hbGet k s).1 = (0, none) ∧
    ∃ k', (exec (.get k') s).1 = .got (some (31, none)) ∧ (hbGet k' s).1 = (0, none) :=
  ⟨runSt demo St.init, demoKey 11, ⟨demo, rfl⟩, by decide +kernel, by decide +kernel, demoKey 3, by decide +kernel,
    by decide +kernel⟩

/-- C37 in general: the callback is called exactly for keys stored with a value, once, without error,
with the number and the value `get` gives (the number is never 0, the code for "not found"). For
all other keys the task panics. -/
theorem c_get_decides {s : St} (hs : Reachable s) (k : Bytes) :
    ∃ o, (exec (.get k) s).1 = .got o ∧
      ((∃ q v, o = some (q, some v) ∧ q ≠ 0 ∧ (hbGet k s).1 = (0, some ⟨0, [], q, v⟩)) ∨
       ((∀ q v, o ≠ some (q, some v)) ∧ (hbGet k s).1 = (0, none))) := by
  obtain ⟨d, h⟩ := hs.holds
  obtain ⟨s', h1, e⟩ := get_holds h k
  refine ⟨d.map k, h.get k, ?_⟩
  have ht : tryResult (get k) s = (.ok (.ok (d.map k)), s') := by simp only [tryResult, h1]
  have hpos : ∀ q v, d.map k = some (q, v) → q ≠ 0 := by
    intro q v hq
    obtain ⟨cs, rfl⟩ := hs
    have h2 := (run_holds cs).get k
    have h3 := h.get k
    rw [h2] at h3
    have h4 := get_latest cs k
    rw [h2] at h4
    have h5 : lastWrite k (effects cs (runReplies cs St.init)).reverse = some (q, v) := by
      rw [← hq]
      injection h3 with h3
      injection h4 with h4
      rw [← h3, h4]
    revert h5
    generalize (effects cs (runReplies cs St.init)).reverse = l
    induction l with
    | nil => intro h; cases h
    | cons w l ih =>
      unfold lastWrite
      split
      · cases w with
        | set k' v' => intro h; cases h; omega
        | clear k' => intro h; cases h
      · exact ih
  cases ho : d.map k with
  | none =>
    right
    refine ⟨(by intro q v h; cases h), ?_⟩
    simp only [hbGet, hbGetTask, bind_run, ht, ho]
    rfl
  | some x =>
    obtain ⟨q, v⟩ := x
    cases v with
    | none =>
      right
      refine ⟨(by intro q v h; cases h), ?_⟩
      simp only [hbGet, hbGetTask, bind_run, ht, ho]
      rfl
    | some v =>
      left
      refine ⟨q, v, rfl, hpos q _ ho, ?_⟩
      simp only [hbGet, hbGetTask, bind_run, ht, ho]
      rfl

/-- C37.  Missing from the full statement: keys that are absent (and keys stored without a value),
for which the callback is never called (`c_get_silent`). -/
theorem c_get_partial {s : St} (hs : Reachable s) {k : Bytes} {q : Nat} {v : Bytes}
    (hk : (exec (.get k) s).1 = .got (some (q, some v))) : (hbGet k s).1 = (0, some ⟨0, [], q, v⟩) := by
  obtain ⟨o, h1, h2⟩ := c_get_decides hs k
  rw [hk] at h1
  injection h1 with h1
  subst h1
  rcases h2 with ⟨q', v', h2, _, h3⟩ | ⟨h2, _⟩
  · cases h2; exact h3
  · exact absurd rfl (h2 q v)

/-- In any state at all, also one whose core is damaged or whose storage fails: `hb_get` returns 0, and
the callback is called exactly if the lookup finds a value, with that value.  In particular no error
is ever reported. -/
theorem c_get_any (s : St) (k : Bytes) :
    (hbGet k s).1.1 = 0 ∧ ∀ a, (hbGet k s).1.2 = some a ↔
      ∃ q v, (exec (.get k) s).1 = .got (some (q, some v)) ∧ a = ⟨0, [], q, v⟩ := by
  simp only [hbGet, hbGetTask, bind_run, exec, replyOf, tryResult]
  generalize Hyperbee.get k s = o
  obtain ⟨o1, s'⟩ := o
  rcases o1 with e | _ | ⟨q, _ | v⟩
  · cases e <;> exact ⟨rfl, fun a => ⟨fun h => (nomatch h), fun ⟨q, v, h, _⟩ => (nomatch h)⟩⟩
  · exact ⟨rfl, fun a => ⟨fun h => (nomatch h), fun ⟨q, v, h, _⟩ => (nomatch h)⟩⟩
  · exact ⟨rfl, fun a => ⟨fun h => (nomatch h), fun ⟨q', v, h, _⟩ => (nomatch h)⟩⟩
  · refine ⟨rfl, fun a => ⟨fun h => ⟨q, v, rfl, ?_⟩, ?_⟩⟩
    · cases h; rfl
    · rintro ⟨q', v', h, rfl⟩; cases h; rfl

/-- The panic leaves a handle that answers every later sequence of calls as before. -/
theorem c_get_harmless {s : St} (hs : Reachable s) (k : Bytes) (cs : List Cmd) :
    runReplies cs (hbGet k s).2 = runReplies cs s := by
  obtain ⟨d, h⟩ := hs.holds
  have e : (hbGet k s).2 = (exec (.get k) s).2 := by
    obtain ⟨s', h1, _⟩ := get_holds h k
    have ht : tryResult (get k) s = (.ok (.ok (d.map k)), s') := by simp only [tryResult, h1]
    simp only [exec, replyOf, h1]
    cases ho : d.map k with
    | none => simp only [hbGet, hbGetTask, bind_run, ht, ho]; rfl
    | some x =>
      obtain ⟨q, v⟩ := x
      cases v <;> (simp only [hbGet, hbGetTask, bind_run, ht, ho]; rfl)
  rw [e]
  exact (h.quiet (c := .get k) rfl).2 cs

/-- A lookup in a core whose newest block is no block fails, and the C program never hears of it. -/
example : (exec (.get [1]) (St.open [[], [255]])).1 = .error .decode ∧
    (hbGet [1] (St.open [[], [255]])).1 = (0, none) := by decide +kernel

example : (hbGet (demoKey 4) (runSt demo St.init)).1 = (0, some ⟨0, [], 34, [1, 2]⟩) := by decide +kernel

end Hyperbee
