import Verif.Proof.OwnRun
import Verif.Props.Contents
/-!
# Reading through a handle of one's own while others write

Property C66.
-/

namespace Hyperbee

/-! ## C66 -/

/-- C66.  Any calls, reading or writing, through any handles, overlap in any way.  A reading call
through a handle that nobody writes through meanwhile replies as of the moment of its first step: if
the core was then one that some history on an empty core leads to, the reply is the one a fresh handle
on that core would give, whatever is written while the call is under way.  The handle is as `earlier`
calls, not overlapping, through it and through others have left it; in particular it may have been
written through, and have nodes in memory that have been replaced since; the core may have grown since
then. -/
theorem read_is_snapshot (w : World) (earlier : List (Nat × Cmd)) (calls : List (Nat × List Cmd)) (i h : Nat) (c : Cmd)
    (hi : calls[i]? = some (h, [c])) (hused : w.handles h = (World.run earlier World.init).2.handles h)
    (hgrown : (World.run earlier World.init).2.core <+: w.core)
    (hown : ∀ cs, (h, cs) ∈ calls → ∀ c' ∈ cs, c'.looks = true)
    (before after : List Nat) (hfirst : i ∉ before) (past : List Cmd) :
    let start := calls.map fun x => (x.1, Prog.history x.2)
    let core := (World.interleave before start w).2.core
    core = (runSt past St.init).core →
    ∀ rs, World.result (World.interleave (before ++ i :: after) start w) i = some rs →
      rs = [(exec c (St.open core)).1] := by
  intro start core hcore rs hr
  have hc : c.looks = true := hown [c] (List.mem_of_getElem? hi) c (by simp)
  have hs : Reachable (runSt past St.init) := ⟨past, rfl⟩
  have hb := World.All.init.run earlier h
  generalize hbs : (World.run earlier World.init).2.at h = b at hb
  have hat : w.at h = b.on w.core := by
    rw [← hbs]
    simp only [World.at, St.on, hused]
  have hbc : b.core <+: core := by
    rw [← hbs]
    exact hgrown.trans (World.interleave_grows before start w)
  obtain ⟨d', hd'⟩ := hb.catch_up past (by rw [← hcore]; exact hbc)
  rw [← hcore] at hd'
  obtain ⟨G, hG⟩ := hd'.fenced
  obtain ⟨d, hd⟩ := hs.holds
  have hopen := hd.stored.open
  rw [← hcore] at hopen
  have hsame : (exec c (b.on core)).1 = (exec c (St.open core)).1 := (call_same hd' hopen rfl c).1
  have hid : ideal (b.on core) (Prog.exec c) = .ok (exec c (St.open core)).1 := by
    rw [ideal_exec_at hd'.wf.rooms hc, hsame]
  obtain ⟨r, h1, h2⟩ := World.read_first (b := b) (G := G) (w := w) (h := h) (i := i) (c := c) start hb.wf.rooms hat
    (by simp [start, hi]) hc (by
      intro j p hj
      simp only [start, List.getElem?_map, Option.map_eq_some_iff] at hj
      obtain ⟨⟨h', cs⟩, hx, hy⟩ := hj
      simp only [Prod.mk.injEq] at hy
      obtain ⟨rfl, rfl⟩ := hy
      exact loader_history (hown cs (List.mem_of_getElem? hx)))
    before after hfirst hG (by
      show ideal (b.on core) _ ≠ _
      rw [hid, hcore]
      have hsame := (call_same hd hd.stored.open rfl c).1
      rw [← hsame]
      have := no_failure hs c
      intro he
      simp only [Except.ok.injEq] at he
      cases c with
      | version => exact this _ he
      | get k => exact this _ he
      | traverse b rs =>
        rcases this with ⟨_, h⟩ | ⟨_, h⟩ | ⟨xs, f, h⟩
        · rw [he] at h; cases h
        · rw [he] at h; cases h
        · rw [he] at h; cases h
      | _ => cases hc) rs hr
  rw [h1]
  have h2 : ideal (b.on core) (Prog.exec c) = .ok r := h2
  rw [hid] at h2
  cases h2
  rfl

/-- C66.  In particular, while one handle is written through, one call after the other, and any
number of calls read through other handles, new or used: every reader sees the database as it was, at the moment
of the reader's first step, between two calls of the writer (or before the writer's first put, with
the header in place).  So readers never see a half-written change, and never an error because of a
writer. -/
theorem readers_follow_writer (past : List (Nat × Cmd)) (hw : Nat) (ws : List Cmd) (hws : ∀ c ∈ ws, c ≠ .reopen)
    (readers : List (Nat × Cmd)) (hlook : ∀ x ∈ readers, x.2.looks = true ∧ x.1 ≠ hw)
    (i h : Nat) (c : Cmd) (hi : readers[i]? = some (h, c)) (before after : List Nat) (hfirst : i + 1 ∉ before) :
    let w := (World.run past World.init).2
    let start := ((hw, ws) :: readers.map fun x => (x.1, [x.2])).map fun x => (x.1, Prog.history x.2)
    let core := (World.interleave before start w).2.core
    (∃ j, j ≤ ws.length ∧
      (core = (World.run (past ++ (ws.take j).map fun c => (hw, c)) World.init).2.core ∨
        (World.run (past ++ (ws.take j).map fun c => (hw, c)) World.init).2.core = [] ∧
        core = (World.run [(hw, .createHeader none)] World.init).2.core)) ∧
    ∀ rs, World.result (World.interleave (before ++ (i + 1) :: after) start w) (i + 1) = some rs →
      rs = [(exec c (St.open core)).1] := by
  intro w start core
  have hall : w.All _ := World.All.init.run past
  have hread : ∀ (j h' : Nat) (q : Prog (List Reply)), j ≠ 0 → start[j]? = some (h', q) →
      ∃ c', (h', c') ∈ readers ∧ q = Prog.history [c'] := by
    intro j h' q hj hq
    obtain ⟨j, rfl⟩ : ∃ k, j = k + 1 := ⟨j - 1, by omega⟩
    simp only [start, List.map_cons, List.getElem?_cons_succ, List.map_map, List.getElem?_map,
      Option.map_eq_some_iff, Function.comp] at hq
    obtain ⟨x, hx, hy⟩ := hq
    simp only [Prod.mk.injEq] at hy
    obtain ⟨rfl, rfl⟩ := hy
    exact ⟨x.2, List.mem_of_getElem? hx, rfl⟩
  obtain ⟨n, hn⟩ := World.interleave_writer (hw := hw) (iw := 0) before start w (Prog.history ws) rfl (by
    intro j h' q hj hq
    obtain ⟨c', hc', rfl⟩ := hread j h' q hj hq
    have := hlook _ hc'
    refine ⟨this.2, ?_⟩
    exact noApp_acts.bind (noApp_exec this.1) fun r => trivial)
  obtain ⟨j, hj, hjc⟩ := history_core ws (hall hw) hws n
  have hcore : core = (Prog.after n (Prog.history ws) (w.at hw)).2.core := congrArg St.core hn
  rw [← hcore] at hjc
  have hs0 := World.run_same past World.All.init Holds.init rfl
  have hrun : (runSt (ws.take j) (w.at hw)).core =
      (World.run (past ++ (ws.take j).map fun c => (hw, c)) World.init).2.core := by
    have h1 := World.run_same (past ++ (ws.take j).map fun c => (hw, c)) World.All.init Holds.init rfl
    rw [h1.2]
    have h2 := runs_same (ws.take j) (hall hw) (run_refines (past.map (·.2)) Holds.init).2 hs0.2.symm
    rw [h2.2]
    rw [List.map_append, runSt_append, List.map_map, show ((fun x : Nat × Cmd => x.2) ∘ fun c => (hw, c)) = id from rfl,
      List.map_id]
  rw [hrun] at hjc
  have hhead : (World.run [(hw, .createHeader none)] World.init).2.core = [headerBlock] := rfl
  have hreach : ∃ cs, core = (runSt cs St.init).core := by
    rcases hjc with e | ⟨_, e⟩
    · exact ⟨_, by rw [e]; exact (World.run_same _ World.All.init Holds.init rfl).2⟩
    · exact ⟨[.createHeader none], by rw [e]; rfl⟩
  refine ⟨⟨j, hj, ?_⟩, ?_⟩
  · rw [hhead]; exact hjc
  · obtain ⟨cs, hcs⟩ := hreach
    exact read_is_snapshot w past ((hw, ws) :: readers.map fun x => (x.1, [x.2])) (i + 1) h c (by simp [hi])
      rfl (List.prefix_refl _) (by
        intro cs' hm c' hc'
        simp only [List.mem_cons, Prod.mk.injEq, List.mem_map] at hm
        rcases hm with ⟨rfl, _⟩ | ⟨x, hx, hy, rfl⟩
        · exact absurd rfl (hlook _ (List.mem_of_getElem? hi)).2
        · simp only [List.mem_singleton] at hc'
          subst hc'
          exact (hlook x hx).1) before after hfirst cs hcs

/-- A lookup and a traversal through handle 1, which has put a key before, while handle 0 puts a key and
deletes another: after 30 steps the writer has put the key, and the readers start; the key that is
deleted then is still there for them. -/
example :
    let w := (World.run [(0, .put [99] (some [3])), (1, .put [98] (some [2]))] World.init).2
    let start := ((0, [.put [97] (some [1]), .del [99]]) ::
      [((1 : Nat), Cmd.get [99]), (1, .traverse {} (List.replicate 20 true))].map fun x => (x.1, [x.2])).map
        fun x => (x.1, Prog.history x.2)
    let sched := List.replicate 30 0 ++ (List.replicate 60 [1, 0, 2]).flatten
    [0, 1, 2].map (World.result (World.interleave sched start w)) =
      [some [.put none 3, .del (some 1)], some [.got (some (1, some [3]))],
        some [.items [.ok ⟨3, [97], some [1]⟩, .ok ⟨2, [98], some [2]⟩, .ok ⟨1, [99], some [3]⟩] true]] := by
  decide +kernel

/-- What handle 1 has in memory there is not what is stored: its copy of the node in block 1 has the key
it has put, too. -/
example :
    let w := (World.run [(0, .put [99] (some [3])), (1, .put [98] (some [2]))] World.init).2
    ((w.at 1).cache 1).map (fun e => e.nodes.map fun a => (w.at 1).heap[a]?) = some [some ⟨[2, 1], []⟩] ∧
    (blockAt w.core 1).map (fun b => b.nodes) = some [⟨[1], []⟩] := by
  decide +kernel

end Hyperbee
