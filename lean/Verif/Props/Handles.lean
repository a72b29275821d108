import Verif.Proof.Handles
import Verif.Props.Demo
/-!
# Several handles
-/

namespace Hyperbee

/-! ## C18 -/

/-- Any number of handles on one core, used in any order, one call at a time: the replies, and the
blocks written, are those of a single handle to which all the calls were made. -/
theorem handles_agree (cs : List (Nat × Cmd)) :
    (World.run cs World.init).1 = runReplies (cs.map (·.2)) St.init ∧
    (World.run cs World.init).2.core = (runSt (cs.map (·.2)) St.init).core :=
  World.run_same cs World.All.init Holds.init rfl

/-- In particular every handle reads the last write, whoever made it. -/
theorem handles_read_latest (cs : List (Nat × Cmd)) (i j : Nat) (k : Bytes) (v : Option Bytes) :
    ∃ q, (World.run (cs ++ [(i, .put k v), (j, .get k)]) World.init).1.getLast? = some (.got (some (q, v))) := by
  rw [(handles_agree _).1, List.map_append]
  have happ : ∀ (a b : List Cmd) (s : St), runReplies (a ++ b) s = runReplies a s ++ runReplies b (runSt a s) := by
    intro a b
    induction a with
    | nil => intro s; rfl
    | cons c a ih => intro s; exact congrArg _ (ih _)
  rw [happ]
  have hd := run_holds (cs.map (·.2))
  generalize runSt (cs.map (·.2)) St.init = s at hd
  generalize Db.empty.after (cs.map (·.2)) = d at hd
  have h1 := (exec_refines hd (.put k v)).2
  have h2 := (exec_refines h1 (.get k)).1
  refine ⟨d.nextSeq, ?_⟩
  have e : runReplies ([(i, Cmd.put k v), (j, Cmd.get k)].map (·.2)) s
      = [(exec (.put k v) s).1, (exec (.get k) (exec (.put k v) s).2).1] := rfl
  rw [e]
  simp only [Db.Returns, Db.next, Db.write] at h2
  rw [h2, List.getLast?_append]
  simp

/-- Three handles taking turns: everyone sees every write. -/
example : (World.run [(0, .put [1] (some [7])), (1, .get [1]), (1, .put [2] none), (2, .del [1]), (0, .get [1]),
      (0, .get [2])] World.init).1 =
    [.put none 1, .got (some (1, some [7])), .put none 2, .del (some 1), .got none, .got (some (2, none))] := by
  decide +kernel

end Hyperbee
