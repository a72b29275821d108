import Verif.Proof.Honest
import Verif.Props.Contents
import Verif.Props.Config
/-!
# Writing while reading (C33, C52)

Writes change cached nodes in place, and readers hold on to nodes and to indices into them.  Here is
what that can lead to, and what remains true of every entry a reader reports.
-/

namespace Hyperbee

theorem Told.holds {F : List Bytes} {q : Nat} {k : Bytes} {v : Option Bytes} (h : Told F q k v) : BlockHolds F q k v := by
  obtain ⟨b, m, h1, h2, h3, h4, _⟩ := h
  exact ⟨b, m, h1, h2, h3, h4⟩

/-! ## C33: writing between two polls of a stream -/

/-- What a full traversal yields when it is polled `n` times, then the call `c` is made through the
same handle, then it is polled again. -/
def streamWith (cs : List Cmd) (n : Nat) (c : Cmd) : Except Err (List (Except Err KeyValueData)) :=
  match traverse .default (runSt cs St.init) with
  | (.error e, _) => .error e
  | (.ok fs, s) =>
    match (World.watch 0 (List.replicate n (.poll true) ++ .call 0 c :: List.replicate 20 (.poll true)) fs
      (World.init.set 0 s)).1 with
    | .ok (xs, _) => .ok xs
    | .error e => .error e

/-- Deleting the key just yielded: the next poll panics.  (After six polls the stream has yielded
the first key; its index for the second is one too great now.) -/
theorem stream_panics :
    streamWith [.put [10] none, .put [12] none] 6 .version = .ok [.ok ⟨1, [10], none⟩, .ok ⟨2, [12], none⟩] ∧
    streamWith [.put [10] none, .put [12] none] 6 (.del [10]) = .error (.panic "lib.rs:235 keys[index]") := by
  decide +kernel

/-- Putting a smaller key: the stream yields one key twice and another, present all the time, never. -/
theorem stream_repeats :
    streamWith [.put [10] none, .put [12] none] 6 (.put [9] none) = .ok [.ok ⟨1, [10], none⟩, .ok ⟨1, [10], none⟩] := by
  decide +kernel

/-- Putting a key into a full node: the stream ends at once, though eight keys are present all the
time. -/
theorem stream_misses :
    streamWith ((List.range 8).map fun i => .put [UInt8.ofNat i] none) 0 (.put [99] none) = .ok [] := by
  decide +kernel

/-- What holds whatever is written between the polls, through this handle or others: each entry the
stream yields is the content of the block it names, and its key is in the range asked for.

Missing from the full statement: that the entries are those of the moment the stream was created
(`not_snapshot`, `stream_repeats`, `stream_misses`), and that there is no panic (`stream_panics`). -/
theorem stream_honest_partial (cs : List (Nat × Cmd)) (h : Nat) {b : TraverseConfigBuilder} {conf : TraverseConfig}
    (hb : b.build = .ok conf) {fs : List Frame} {s : St}
    (ht : traverse conf ((World.run cs World.init).2.at h) = (.ok fs, s)) (acts : List Act)
    {xs : List (Except Err KeyValueData)} {fin : Option (List Frame)}
    (hx : (World.watch h acts fs ((World.run cs World.init).2.set h s)).1 = .ok (xs, fin))
    {e : KeyValueData} (he : .ok e ∈ xs) :
    BlockHolds (World.watch h acts fs ((World.run cs World.init).2.set h s)).2.core e.seq e.key e.value ∧
      InRange conf e.key := by
  have hs : ((World.run cs World.init).2.at h).core <+: s.core := by
    have := (Prog.traverse conf).grows ((World.run cs World.init).2.at h)
    rw [does_traverse conf, ht] at this
    exact this.1
  have hF := watch_grows h acts fs ((World.run cs World.init).2.set h s)
  generalize hFe : (World.watch h acts fs ((World.run cs World.init).2.set h s)).2.core = F at hF ⊢
  have hF : s.core <+: F := hF
  have hw : (World.run cs World.init).2.Candid F :=
    World.Candid.run cs (fun _ => ⟨List.nil_prefix, fun q e he => by cases he⟩) (hs.trans hF)
  have h1 := (hon_traverse (F := F) conf).run (hw h) (by rw [does_traverse conf, ht]; exact hF)
  rw [does_traverse conf, ht] at h1
  have := watch_honest h acts fs _ (hw.set h1.2) (h1.1 fs rfl) (by rw [hFe]; exact List.prefix_rfl) xs fin hx e he
  exact ⟨this.1.holds, (bounds_check hb e.key).mp this.2⟩

/-- A stream that yields an entry written after it was created. -/
example : streamWith [.put [10] none] 0 (.put [11] (some [1])) = .ok [.ok ⟨1, [10], none⟩, .ok ⟨2, [11], some [1]⟩] := by
  decide +kernel

/-! ## C52: reading while a write is under way -/

/-- Keys 10 to 17, the number of the block as value: one full node. -/
def eight : List Cmd := (List.range 8).map fun i => .put [UInt8.ofNat (i + 10)] (some [UInt8.ofNat (i + 1)])

/-- A get overlapping a put of another key: it finds nothing, though its key is present all the time.
(The put has taken the keys out of the full node to split it.) -/
theorem read_during_split_misses : ∃ s, Reachable s ∧ (exec (.get [13]) s).1 = .got (some (4, some [4])) ∧
    ∃ sched, ((Flight.start [Prog.exec (.get [13]), Prog.exec (.put [99] none)] s).run sched).calls.map Prog.result =
      [some (.got none), some (.put none 9)] :=
  ⟨runSt eight St.init, ⟨_, rfl⟩, by decide +kernel,
    List.replicate 23 1 ++ List.replicate 20 0 ++ List.replicate 40 1, by decide +kernel⟩

/-- A get overlapping a put of another key: it panics. -/
theorem read_during_split_panics : ∃ s, Reachable s ∧ (exec (.get [13]) s).1 = .got (some (4, some [4])) ∧
    ∃ sched, ((Flight.start [Prog.exec (.get [13]), Prog.exec (.put [99] none)] s).run sched).calls.map Prog.result =
      [some (.error (.panic "lib.rs:235 keys[index]")), some (.put none 9)] :=
  ⟨runSt eight St.init, ⟨_, rfl⟩, by decide +kernel,
    List.replicate 6 0 ++ List.replicate 23 1 ++ List.replicate 20 0 ++ List.replicate 40 1, by decide +kernel⟩

/-- A get overlapping a deletion of another key: it returns the value of a third key. -/
theorem read_during_del_mixes : ∃ s, Reachable s ∧
    (exec (.get [11]) s).1 = .got (some (2, some [2])) ∧ (exec (.get [12]) s).1 = .got (some (3, some [3])) ∧
    ∃ sched, ((Flight.start [Prog.exec (.get [11]), Prog.exec (.del [10])] s).run sched).calls.map Prog.result =
      [some (.got (some (3, some [3]))), some (.del (some 1))] :=
  ⟨runSt (eight.take 3) St.init, ⟨_, rfl⟩, by decide +kernel, by decide +kernel,
    List.replicate 9 0 ++ List.replicate 30 1 ++ List.replicate 20 0, by decide +kernel⟩

/-- What holds whatever calls overlap, in whatever order their steps come: a value that a get
returns is the value in the block it names, and each entry a traversal yields is the content of the
block it names, with its key in the range asked for.

Missing from the full statement: that the block is the one of the key asked for
(`read_during_del_mixes`), that present keys are found (`read_during_split_misses`) and that reads
succeed (`read_during_split_panics`, `read_during_write_false`). -/
theorem read_during_write_honest_partial {s : St} (hs : Reachable s) (cs : List Cmd) (sched : List Nat) (i : Nat) (c : Cmd)
    (hi : cs[i]? = some c) (p : Prog Reply) (r : Reply)
    (hp : (Prog.interleave sched (cs.map Prog.exec) s).1[i]? = some p) (hr : p.result = some r) :
    (∀ q v, r = .got (some (q, v)) →
      ∃ k, BlockHolds (Prog.interleave sched (cs.map Prog.exec) s).2.core q k v) ∧
    (∀ b rs xs fin e, c = .traverse b rs → r = .items xs fin → .ok e ∈ xs →
      BlockHolds (Prog.interleave sched (cs.map Prog.exec) s).2.core e.seq e.key e.value ∧
      ∀ conf, b.build = .ok conf → InRange conf e.key) := by
  have hF := interleave_grows sched (cs.map Prog.exec) s
  generalize hFe : (Prog.interleave sched (cs.map Prog.exec) s).2.core = F at hF ⊢
  have h1 := Hon.interleave (F := F) (Q := fun j r => ∀ c, cs[j]? = some c → Candidly F c r) sched (cs.map Prog.exec) s
    (fun j q hq => by
      rw [List.getElem?_map] at hq
      obtain ⟨c', h1, rfl⟩ := Option.map_eq_some_iff.mp hq
      refine (hon_exec F c').imp fun r hr c'' h2 => ?_
      rw [h1] at h2
      cases h2
      exact hr) (candid_reachable hs hF) (by rw [hFe]; exact List.prefix_rfl) i p hp
  cases p with
  | throw e => cases hr
  | step x k => cases hr
  | pure a =>
    cases hr
    have h2 : Candidly F c r := h1 c hi
    refine ⟨fun q v h => ?_, fun b rs xs fin e hc h he => ?_⟩
    · subst h
      obtain ⟨k, hk⟩ := h2
      exact ⟨k, hk.holds⟩
    · subst h
      obtain ⟨h3, h4⟩ := h2 e he
      exact ⟨h3.holds, fun conf hb => (bounds_check hb e.key).mp (h4 b rs conf hc hb)⟩

/-- The run of `read_during_del_mixes`: the value returned is that of block 3. -/
example : BlockHolds (runSt [] (runSt (eight.take 3) St.init)).core 3 [12] (some [3]) :=
  seq_names_block ⟨_, rfl⟩ (k := [12]) (by decide +kernel) []

end Hyperbee
