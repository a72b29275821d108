import Verif.Props.Log
import Verif.Props.Handles
import Verif.Props.Contents
import Verif.Proof.Linear
/-!
# Calls that overlap through different handles
-/

namespace Hyperbee

open Wire

/-! ## C91 -/

/-- Writes through different handles that overlap can lose an update: both puts return that they are
done, and one of the keys is not there, whichever handle one asks, nor for a new one. -/
theorem rival_puts_false : ∃ w, (∃ cs, (World.run cs World.init).2 = w) ∧ ∃ sched x,
    x = World.interleave sched (flights [(0, .put [97] (some [1])), (1, .put [98] (some [2]))]) w ∧
    World.result x 0 = some (.put none 3) ∧ World.result x 1 = some (.put none 2) ∧
    (World.run [(0, .get [98]), (1, .get [98]), (2, .get [98]), (2, .get [97])] x.2).1 =
      [.got none, .got none, .got none, .got (some (3, some [1]))] :=
  ⟨_, ⟨[(0, .put [99] (some [3]))], rfl⟩, List.replicate 3 0 ++ List.replicate 40 1 ++ List.replicate 40 0, _, rfl,
    by decide +kernel, by decide +kernel, by decide +kernel⟩

/-- They can also make the database unusable for ever, for all handles. -/
theorem rival_puts_brick : ∃ w, (∃ cs, (World.run cs World.init).2 = w) ∧ ∃ sched x,
    x = World.interleave sched (flights [(0, .put [45] (some [1])), (1, .put [20] (some [2]))]) w ∧
    World.result x 0 = some (.put none 9) ∧ World.result x 1 = some (.put (some 3) 9) ∧
    ∀ k ∈ [0, 10, 20, 45, 70], ∀ h ∈ [0, 1, 2], (World.run [(h, .get [k]), (h, .put [k] none)] x.2).1 =
      List.replicate 2 (.error (.panic "blocks.rs:224 offset *should* always point to a real node")) :=
  ⟨_, ⟨(List.range 8).map fun i => (0, .put [UInt8.ofNat (10 * i)] (some [3])), rfl⟩,
    List.replicate 10 0 ++ List.replicate 80 1 ++ List.replicate 80 0, _, rfl,
    by decide +kernel, by decide +kernel, by decide +kernel⟩

theorem Kept.at {n : Nat} {Lost : Nat → Prop} {E : Nat → Reply → Option Write} {G : Nat → Budget} {log : List Entry}
    {ps : List (Prog Reply)} {s t : St} (h : Kept n Lost E G log ps s) (hc : t.core = s.core) : Kept n Lost E G log ps t := by
  refine ⟨fun i p hp => ?_, h.headers, h.blocks, h.once⟩
  rw [hc]
  exact h.each i p hp

theorem Kept.world {n : Nat} {Lost : Nat → Prop} {E : Nat → Reply → Option Write} {G : Nat → Budget} {core0 : List Bytes}
    (hn : core0.length = n) (sched : List Nat) : ∀ {log : List Entry} {ps : List (Nat × Prog Reply)} {w : World},
    w.core = core0 ++ log.map Entry.block → Kept n Lost E G log (ps.map (·.2)) (w.at 0) →
    ∃ log', (World.interleave sched ps w).2.core = core0 ++ log'.map Entry.block ∧
      Kept n Lost E G log' ((World.interleave sched ps w).1.map (·.2)) ((World.interleave sched ps w).2.at 0) := by
  induction sched with
  | nil => exact fun hc h => ⟨_, hc, h⟩
  | cons i is ih =>
    intro log ps w hc h
    unfold World.interleave
    split
    · exact ih hc h
    · next hd p hp =>
      have hp' : (ps.map (·.2))[i]? = some p := by rw [List.getElem?_map, hp]; rfl
      have h1 : Kept n Lost E G log (ps.map (·.2)) (w.at hd) := h.at rfl
      obtain ⟨log', hc', h'⟩ := h1.step (s := w.at hd) hn hc hp'
      refine ih (log := log') hc' ?_
      rw [List.map_set]
      exact h'.at rfl

theorem world_length (sched : List Nat) : ∀ (ps : List (Nat × Prog Reply)) (w : World),
    (World.interleave sched ps w).1.length = ps.length := by
  induction sched with
  | nil => exact fun _ _ => rfl
  | cons i is ih =>
    intro ps w
    unfold World.interleave
    split
    · exact ih ps w
    · rw [ih, List.length_set]

/-- What does hold, whatever calls overlap through whatever handles and whichever are dropped: the blocks
appended are, one for one, those of the calls that returned and by their reply wrote something, each with
the key and the value of its call; and headers, of which there are none unless the core was empty.  So a
write that was lost can be found in the log. -/
theorem rival_log_partial (w : World) (cs : List (Nat × Cmd)) (sched : List Nat) :
    ∃ log : List (Nat × Option Write × Bytes),
      (World.interleave sched (flights cs) w).2.core = w.core ++ log.map (fun e => e.2.2) ∧
      (∀ i wr b, (i, some wr, b) ∈ log → ∃ h c r nodes, cs[i]? = some (h, c) ∧
        World.result (World.interleave sched (flights cs) w) i = some r ∧ effect c r = some wr ∧
        CBlock wr.stored.1 wr.stored.2 nodes b) ∧
      (∀ i h c r wr, cs[i]? = some (h, c) → World.result (World.interleave sched (flights cs) w) i = some r →
        effect c r = some wr → ∃ b, (i, some wr, b) ∈ log) ∧
      (∀ i b, (i, none, b) ∈ log → w.core = [] ∧ ∃ h c, cs[i]? = some (h, c) ∧
        ((∃ m : Option Metadata, c = .createHeader m ∧ CHeader hyperbeeName (m.map fun m => (m.contentFeed, m.userData)) b) ∨
          (∃ k v, c = .put k v ∨ ∃ cas, c = .putCas k v cas) ∧ CHeader hyperbeeName none b)) ∧
      (log.map fun e => (e.1, e.2.1.isSome)).Nodup := by
  have h0 := kept_start (w.at 0) (cs.map (·.2))
  have hm : (flights cs).map (·.2) = (cs.map (·.2)).map Prog.exec := by
    unfold flights; rw [List.map_map, List.map_map]; rfl
  rw [← hm] at h0
  obtain ⟨log, hcore, h⟩ := Kept.world (w := w) (core0 := w.core) rfl sched (by simp) h0
  have hl : ((World.interleave sched (flights cs) w).1.map (·.2)).length = (cs.map (·.2)).length := by
    rw [List.length_map, List.length_map, world_length]; simp [flights]
  obtain ⟨log, h1, h2, h3, h4, h5, _⟩ := h.faithful (core0 := w.core) hl hcore
  have hcs : ∀ {i : Nat} {c : Cmd}, (cs.map (·.2))[i]? = some c → ∃ h, cs[i]? = some (h, c) := by
    intro i c hi
    rw [List.getElem?_map] at hi
    obtain ⟨⟨h, c'⟩, e1, rfl⟩ := Option.map_eq_some_iff.mp hi
    exact ⟨h, e1⟩
  have hr : ∀ i, (((World.interleave sched (flights cs) w).1.map (·.2))[i]?.bind Prog.result) =
      World.result (World.interleave sched (flights cs) w) i := by
    intro i
    unfold World.result
    rw [List.getElem?_map]
    cases (World.interleave sched (flights cs) w).1[i]? <;> rfl
  refine ⟨log, h1, fun i wr b hb => ?_, fun i h c r wr hi hres hef => ?_, fun i b hb => ?_, h5⟩
  · obtain ⟨c, r, nodes, e1, e2, e3⟩ := h2 i wr b hb
    obtain ⟨h, e1⟩ := hcs e1
    exact ⟨h, c, r, nodes, e1, by rw [← hr]; exact e2, e3⟩
  · exact h3 i c r wr (by rw [List.getElem?_map, hi]; rfl) (by rw [hr]; exact hres) hef
  · obtain ⟨e0, c, e1, e2⟩ := h4 i b hb
    obtain ⟨h, e1⟩ := hcs e1
    exact ⟨e0, h, c, e1, e2⟩

/-- And calls through different handles may overlap as they like as long as they keep apart: while a call
is under way, no other appends to the core, or takes a step on its handle.  Then the calls reply, and leave
the core, as if they had been made at once, one after the other, in some order; and so do, by C18, calls
through a single handle.

Missing from the full statement: that calls of which one appends while the other is under way both take
effect (`rival_puts_false`). -/
theorem rival_apart_partial (w : World) (hw : w.core ≠ []) (cs : List (Nat × Cmd)) (hc : ∀ x ∈ cs, x.2 ≠ .reopen)
    (sched : List Nat) (ha : World.apart [] sched (flights cs) w = true) :
    ∃ order : List Nat, order.Nodup ∧
      (∀ i < cs.length, i ∈ order ↔ i ∈ sched ∧ (World.result (World.interleave sched (flights cs) w) i).isSome) ∧
      order.map (World.result (World.interleave sched (flights cs) w)) =
        (World.run (order.filterMap (cs[·]?)) w).1.map some ∧
      (World.interleave sched (flights cs) w).2.core = (World.run (order.filterMap (cs[·]?)) w).2.core ∧
      -- and when all have returned nothing tells the two apart
      ((∀ i ∈ sched, i < cs.length → (World.result (World.interleave sched (flights cs) w) i).isSome) →
        (World.interleave sched (flights cs) w).2 = (World.run (order.filterMap (cs[·]?)) w).2) := by
  have hget : ∀ (i h : Nat) (c : Cmd), cs[i]? = some (h, c) → (flights cs)[i]? = some (h, Prog.exec c) := by
    intro i h c hi
    unfold flights
    rw [List.getElem?_map, hi]
    rfl
  have S0 : Serial cs w [] (flights cs) w [] w :=
    ⟨rfl, by simp [flights], rfl, hw, List.nodup_nil, fun i h c hi _ => ⟨hget i h c hi, by simp⟩,
      fun i h c _ hm => by simp at hm, fun _ _ => rfl, rfl⟩
  obtain ⟨begun, order, u, S, hb⟩ := S0.interleave hc sched ha
  have hres : ∀ i < cs.length, i ∈ order ↔ i ∈ sched ∧ (World.result (World.interleave sched (flights cs) w) i).isSome := by
    intro i hi
    obtain ⟨⟨h, c⟩, hci⟩ : ∃ x, cs[i]? = some x := ⟨_, List.getElem?_eq_getElem hi⟩
    have hbi := hb i hi
    simp only [List.not_mem_nil, false_or] at hbi
    unfold World.result
    constructor
    · intro ho
      by_cases hm : i ∈ begun
      · rcases S.taken i h c hci hm with ⟨n, _, _, _, e⟩ | ⟨r, e, _⟩
        · exact absurd ho e
        · exact ⟨hbi.mp hm, by rw [e]; rfl⟩
      · exact absurd ho (S.fresh i h c hci hm).2
    · rintro ⟨hm, hr⟩
      rcases S.taken i h c hci (hbi.mpr hm) with ⟨n, e1, e2, _⟩ | ⟨r, _, e⟩
      · rw [e1] at hr
        generalize (Prog.after n (Prog.exec c) (u.at h)).1 = q at hr e2
        cases q with
        | step x k => cases hr
        | pure a => cases e2
        | throw a => cases e2
      · exact e
  refine ⟨order, S.nodup, hres, S.told, S.core.trans (congrArg World.core S.run.symm), fun hall => ?_⟩
  show _ = (World.run (pick cs order) w).2
  rw [S.run]
  have hh : (World.interleave sched (flights cs) w).2.handles = u.handles := by
    funext h
    refine S.idle h fun i hi p hp => ?_
    have hlt : i < cs.length := by
      have := (List.getElem?_eq_some_iff.mp hp).1
      rwa [S.len] at this
    have hm : i ∈ sched := by
      have := (hb i hlt).mp hi
      simpa using this
    have hr := hall i hm hlt
    unfold World.result at hr
    rw [hp] at hr
    cases p with
    | step x k => cases hr
    | pure a => rfl
    | throw a => rfl
  have hcore := S.core
  generalize (World.interleave sched (flights cs) w).2 = v at hh hcore
  obtain ⟨vc, vh⟩ := v
  obtain ⟨uc, uh⟩ := u
  cases hh
  cases hcore
  rfl

/-- Two lookups and a put through three handles, step by step in turn until the lookups have returned; then
the put goes on, and a del through the first handle follows. -/
example : World.apart [] ((List.range 45).map (· % 3) ++ List.replicate 30 2 ++ List.replicate 40 3)
      (flights [(0, .get [97]), (1, .get [98]), (2, .put [98] (some [2])), (0, .del [97])])
      (World.run [(0, .put [97] (some [1]))] World.init).2 = true ∧
    (List.range 4).map (World.result (World.interleave
        ((List.range 45).map (· % 3) ++ List.replicate 30 2 ++ List.replicate 40 3)
        (flights [(0, .get [97]), (1, .get [98]), (2, .put [98] (some [2])), (0, .del [97])])
        (World.run [(0, .put [97] (some [1]))] World.init).2)) =
      [some (.got (some (1, some [1]))), some (.got none), some (.put none 2), some (.del (some 1))] := by
  decide +kernel

theorem looks_end {s : St} (hs : Reachable s) (c : Cmd) (hc : c.looks = true) : (exec c s).1 ≠ .error .diverge := by
  intro he
  have := no_failure hs c
  cases c with
  | version => exact this _ he
  | get k => exact this _ he
  | traverse b rs =>
    rcases this with ⟨_, h⟩ | ⟨_, h⟩ | ⟨xs, f, h⟩
    · rw [he] at h; cases h
    · rw [he] at h; cases h
    · rw [he] at h; cases h
  | _ => cases hc

/-- More calls may overlap than those that keep apart: calls that read with each other, also through one
handle, and calls that write with calls that read through other handles.  If no two calls of which one
writes overlap through one handle, and nothing is appended while a call that is to write is under way,
then the calls behave as if made at once, one after the other, in an order in which a call that returned
before another was begun comes first; they are linearizable.  Calls that have not returned, or whose future
was dropped, have had no effect.

Missing from the full statement: as for `rival_apart_partial`. -/
theorem rival_linear_partial (past : List (Nat × Cmd)) (cs : List (Nat × Cmd)) (hc : ∀ x ∈ cs, x.2 ≠ .reopen)
    (sched : List Nat) :
    let w := (World.run past World.init).2
    let at' := fun sched => World.interleave sched (flights cs) w
    w.core ≠ [] → World.orderly cs [] sched (flights cs) w = true →
    ∃ order : List Nat, order.Nodup ∧
      (∀ i < cs.length, i ∈ order ↔ i ∈ sched ∧ (World.result (at' sched) i).isSome) ∧
      (∀ i ∈ order, i < cs.length) ∧
      order.map (World.result (at' sched)) = (World.run (order.filterMap (cs[·]?)) w).1.map some ∧
      (at' sched).2.core = (World.run (order.filterMap (cs[·]?)) w).2.core ∧
      (∀ a b i j, sched = a ++ b → i ∈ a → (World.result (at' a) i).isSome → j ∉ a → i ∈ order → j ∈ order →
        ∃ l₁ l₂, order = l₁ ++ l₂ ∧ i ∈ l₁ ∧ j ∈ l₂) ∧
      -- and when all have returned nothing tells the two apart
      ((∀ i ∈ sched, i < cs.length → (World.result (at' sched) i).isSome) →
        ∀ more, (World.run more (at' sched).2).1 = (World.run more (World.run (order.filterMap (cs[·]?)) w).2).1) := by
  intro w at' hw ho
  have hget : ∀ (i h : Nat) (c : Cmd), cs[i]? = some (h, c) → (flights cs)[i]? = some (h, Prog.exec c) := by
    intro i h c hi
    unfold flights
    rw [List.getElem?_map, hi]
    rfl
  have hall : w.All _ := World.All.init.run past
  have hs0 : Reachable (runSt (past.map (·.2)) St.init) := ⟨_, rfl⟩
  have hd0 := run_holds (past.map (·.2))
  have hcore0 : w.core = (runSt (past.map (·.2)) St.init).core := (World.run_same past World.All.init Holds.init rfl).2
  generalize runSt (past.map (·.2)) St.init = s0 at hs0 hd0 hcore0
  have S0 : Lin cs s0 [] (flights cs) w [] (fun _ => .opened) :=
    ⟨by simp [flights], hcore0, hw, List.nodup_nil, rfl, fun i hi => by simp at hi,
      fun i h c hi _ => ⟨hget i h c hi, by simp⟩, fun i h c _ hm => by simp at hm, fun h => .inr
        ⟨w.at h, _, _, by rw [show w.core = (w.at h).core from rfl, (hall h).on_self]; exact hall h, by
          have := knownB_start (hall h).wf.rooms (w.at h).core
          rw [(hall h).on_self] at this
          exact this, fun i hi => by simp at hi⟩⟩
  obtain ⟨begun, full, ρ, -, S, hb, hmid⟩ := S0.interleave hs0 hc (fun s hs c => looks_end hs c) sched ho
  -- the calls that have returned
  have ret : ∀ {ba oa : List Nat} {ρa : Nat → Reply} {x : List (Nat × Prog Reply) × World} {a : List Nat},
      Lin cs s0 ba x.1 x.2 oa ρa → (∀ i < cs.length, i ∈ ba ↔ i ∈ ([] : List Nat) ∨ i ∈ a) →
      ∀ i h c, cs[i]? = some (h, c) → (i ∈ a ∧ (World.result x i).isSome → i ∈ oa ∧ World.result x i = some (ρa i)) ∧
        (i ∈ oa → i ∈ a ∧ ((World.result x i).isSome ∨ c.looks = true)) := by
    intro ba oa ρa x a Sa hba i h c hci
    have hi := hba i (List.getElem?_eq_some_iff.mp hci).1
    simp only [List.not_mem_nil, false_or] at hi
    refine ⟨fun ⟨h1, h2⟩ => ?_, fun h1 => ?_⟩
    · rcases Sa.taken i h c hci (hi.mpr h1) with ⟨q, e1, e2, _⟩ | ⟨n, b, d, e1, e2, _⟩ | ⟨e1, e2⟩
      · unfold World.result at h2
        rw [e1] at h2
        cases q with
        | step x k => cases h2
        | pure a => cases e2
        | throw a => cases e2
      · unfold World.result at h2
        rw [e1] at h2
        generalize (Prog.after n (Prog.exec c) b).1 = q at h2 e2
        cases q with
        | step x k => cases h2
        | pure a => cases e2
        | throw a => cases e2
      · exact ⟨e2, by unfold World.result; rw [e1]; rfl⟩
    · by_cases hm : i ∈ ba
      · refine ⟨hi.mp hm, ?_⟩
        rcases Sa.taken i h c hci hm with ⟨q, _, _, e, _⟩ | ⟨n, b, d, _, _, _, e, _⟩ | ⟨e1, e2⟩
        · exact .inr e
        · exact absurd h1 e
        · exact .inl (by unfold World.result; rw [e1]; rfl)
      · exact absurd h1 (Sa.fresh i h c hci hm).2
  have hpick : ∀ order : List Nat, (order.filterMap (cs[·]?)).map (·.2) = cmds cs order := by
    intro order
    unfold cmds
    rw [List.map_filterMap]
  obtain ⟨g1, g2⟩ := leave_out (ρ := ρ) (fun i => (World.result (at' sched) i).isSome || !(full.contains i)) (by
    intro i h c hci hP
    simp only [Bool.or_eq_false_iff, Bool.not_eq_false', List.contains_iff_mem] at hP
    rcases ((ret S hb i h c hci).2 hP.2).2 with e | e
    · rw [show (World.result (World.interleave sched (flights cs) w) i).isSome = false from hP.1] at e
      cases e
    · exact e) full hd0 hd0 rfl S.known S.told
  have hfil : full.filter (fun i => (World.result (at' sched) i).isSome || !(full.contains i)) =
      full.filter (fun i => (World.result (at' sched) i).isSome) := by
    refine List.filter_congr fun i hi => ?_
    simp [hi]
  rw [hfil] at g1 g2
  obtain ⟨r1, r2⟩ := World.run_same ((full.filter (fun i => (World.result (at' sched) i).isSome)).filterMap (cs[·]?)) hall
    (d := Db.empty.after (past.map (·.2))) hd0 hcore0.symm
  rw [hpick] at r1 r2
  rw [g1] at r1
  rw [g2, ← S.core] at r2
  refine ⟨full.filter (fun i => (World.result (at' sched) i).isSome), S.nodup.filter _, fun i hi => ?_, fun i hi => ?_, ?_, r2.symm, ?_, ?_⟩
  · obtain ⟨⟨h, c⟩, hci⟩ : ∃ x, cs[i]? = some x := ⟨_, List.getElem?_eq_getElem hi⟩
    rw [List.mem_filter]
    refine ⟨fun ⟨e1, e2⟩ => ⟨((ret S hb i h c hci).2 e1).1, e2⟩, fun ⟨e1, e2⟩ => ⟨((ret S hb i h c hci).1 ⟨e1, e2⟩).1, e2⟩⟩
  · exact S.known i (List.mem_filter.mp hi).1
  · rw [r1, List.map_map]
    refine List.map_congr_left fun i hi => ?_
    obtain ⟨e1, e2⟩ := List.mem_filter.mp hi
    obtain ⟨⟨h, c⟩, hci⟩ : ∃ x, cs[i]? = some x := ⟨_, List.getElem?_eq_getElem (S.known i e1)⟩
    exact ((ret S hb i h c hci).1 ⟨((ret S hb i h c hci).2 e1).1, e2⟩).2
  · intro a b i j hab hia hir hja hi hj
    obtain ⟨ba, oa, ρa, ⟨rest, hrest⟩, Sa, hba⟩ := hmid a b hab
    obtain ⟨e1, e2⟩ := List.mem_filter.mp hi
    obtain ⟨e3, e4⟩ := List.mem_filter.mp hj
    obtain ⟨⟨h, c⟩, hci⟩ : ∃ x, cs[i]? = some x := ⟨_, List.getElem?_eq_getElem (S.known i e1)⟩
    obtain ⟨⟨h', c'⟩, hcj⟩ : ∃ x, cs[j]? = some x := ⟨_, List.getElem?_eq_getElem (S.known j e3)⟩
    have hioa := ((ret Sa hba i h c hci).1 ⟨hia, hir⟩).1
    have hjoa : j ∉ oa := fun hm => hja ((ret Sa hba j h' c' hcj).2 hm).1
    rw [← hrest] at e3 ⊢
    refine ⟨_, _, List.filter_append .., List.mem_filter.mpr ⟨hioa, e2⟩, List.mem_filter.mpr ⟨?_, e4⟩⟩
    rcases List.mem_append.mp e3 with h | h
    · exact absurd h hjoa
    · exact h
  · intro hdone more
    obtain ⟨du, hu⟩ := (hs0.runSt (cmds cs full)).holds
    have hfin : (at' sched).2.All du := by
      intro h
      rcases S.hand h with ⟨i, hi, c, q, e1, e2, e3, e4⟩ | ⟨b, Γ, d, e1, e2, _⟩
      · exfalso
        have hlt := (List.getElem?_eq_some_iff.mp e1).1
        have hm := (hb i hlt).mp hi
        simp only [List.not_mem_nil, false_or] at hm
        have hr := hdone i hm hlt
        unfold World.result at hr
        rw [show (at' sched).1[i]? = some (h, q) from e2] at hr
        cases q with
        | step x k => cases hr
        | pure a => cases e3
        | throw a => cases e3
      · exact (KnownB.holds (s := (at' sched).2.at h) e2 e1).agree hu S.core.symm
    have h1 := (World.run_same more hfin hu S.core.symm).1
    have hall2 := World.All.run ((full.filter (fun i => (World.result (at' sched) i).isSome)).filterMap (cs[·]?)) hall
    have hall3 : (World.run ((full.filter (fun i => (World.result (at' sched) i).isSome)).filterMap (cs[·]?)) w).2.All du :=
      fun h => (hall2 h).agree hu (by rw [← S.core]; exact r2.symm)
    rw [h1, (World.run_same more hall3 hu (by rw [← S.core]; exact r2.symm)).1]

/-- A lookup and a traversal through one handle, while a put and then a del go through another: the
lookup starts before the put returns, and the traversal before the del does.  The calls do not keep apart. -/
example :
    let cs : List (Nat × Cmd) := [(0, .put [98] (some [2])), (1, .get [98]), (0, .del [97]),
      (1, .traverse {} (List.replicate 20 true))]
    let w := (World.run [(0, .put [97] (some [1]))] World.init).2
    let sched := 1 :: List.replicate 16 0 ++ (List.replicate 60 [3, 2, 1]).flatten
    World.orderly cs [] sched (flights cs) w = true ∧ World.apart [] sched (flights cs) w = false ∧
    (List.range 4).map (World.result (World.interleave sched (flights cs) w)) =
      [some (.put none 2), some (.got none), some (.del (some 1)),
        some (.items [.ok ⟨1, [97], some [1]⟩, .ok ⟨2, [98], some [2]⟩] true)] := by
  decide +kernel

end Hyperbee
