import Verif.Model.External
/-!
# What a C program must and must not do

In terms of the calls made so far and what came of them (the trace); nothing is said about memory.
-/

namespace Hyperbee

/-- The calls made, the turns of the tasks, and what came of each. -/
abbrev CTrace := List (CAct × CRet)

/-- The trace of a run that starts with nothing. -/
def cTrace (disk : Bytes → Option (List Bytes)) (acts : List CAct) : CTrace :=
  acts.zip ((CSt.start disk).run acts).1

/-- Something was handed out and has not been given back since. -/
def Held (tr : CTrace) (out : CAct × CRet → Prop) (back : CAct → Prop) : Prop :=
  ∃ before e after, tr = before ++ e :: after ∧ out e ∧ ∀ e' ∈ after, ¬ back e'.1

/-- A pointer returned by `init_runtime`, not passed to `close_runtime` yet. -/
def HasRuntime (tr : CTrace) (p : Ptr) : Prop :=
  Held tr (fun e => p ≠ .null ∧ ∃ ok, e = (.initRuntime ok, .ptr p)) fun a => a = .closeRuntime p

/-- A pointer returned by `hyperbee_from_storage_directory`, not passed to `close_hyperbee` yet. -/
def HasHyperbee (tr : CTrace) (p : Ptr) : Prop :=
  Held tr (fun e => p ≠ .null ∧ ∃ rt dir, e = (.openDir rt dir, .ptr p)) fun a => a = .closeHyperbee p

/-- A message passed to a callback, not passed to `deallocate_rust_string` yet. -/
def HasString (tr : CTrace) (p : Ptr) : Prop :=
  Held tr (fun e => ∃ i c q v n, e = (.turn i, .called c p q v n)) fun a => a = .freeString p

/-- A value of that length passed to a callback, not passed with it to `deallocate_rust_buffer` yet. -/
def HasBuffer (tr : CTrace) (p : Ptr) (n : Nat) : Prop :=
  Held tr (fun e => ∃ i c m q, e = (.turn i, .called c m q p n)) fun a => a = .freeBuffer p n

/-- The calls of `hb_get`, in order: number `i` is the get that task `i` answers. -/
def cGets (tr : CTrace) : List (Ptr × Ptr × Option Bytes) :=
  tr.filterMap fun e => match e.1 with
    | .get rt hb key => some (rt, hb, key)
    | _ => none

/-- Get number `i` has called back, or its task has panicked. -/
def Finished (tr : CTrace) (i : Nat) : Prop :=
  ∃ r, (CAct.turn i, r) ∈ tr ∧ (r = .panicked ∨ ∃ c m q v n, r = .called c m q v n)

/-- The pointers passed are such as were handed out for this purpose and not given back; the key is not
null (the directory may be).  A value without bytes need not be given back but may be, any number of
times. -/
def Proper (tr : CTrace) : CAct → Prop
  | .initRuntime _ => True
  | .closeRuntime rt => HasRuntime tr rt
  | .openDir rt _ => HasRuntime tr rt
  | .closeHyperbee hb => HasHyperbee tr hb
  | .get rt hb key => HasRuntime tr rt ∧ HasHyperbee tr hb ∧ key ≠ none
  | .freeString p => HasString tr p
  | .freeBuffer p n => HasBuffer tr p n ∨ (p = .empty ∧ n = 0)
  | .turn _ => True

/-- A database may only be closed when every get on it is finished or has lost its runtime. -/
def MayClose (tr : CTrace) (hb : Ptr) : Prop :=
  ∀ i rt key, (cGets tr)[i]? = some (rt, hb, key) → Finished tr i ∨ ¬ HasRuntime tr rt

/-- The rules a C program must keep. -/
def Allowed (tr : CTrace) (a : CAct) : Prop :=
  Proper tr a ∧ ∀ hb, a = .closeHyperbee hb → MayClose tr hb

/-- A run in which each action is allowed when it is taken. -/
def KeepsRules (disk : Bytes → Option (List Bytes)) (acts : List CAct) : Prop :=
  ∀ before a after, acts = before ++ a :: after → Allowed (cTrace disk before) a

end Hyperbee
