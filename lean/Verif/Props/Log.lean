import Verif.Proof.Log
import Verif.Proof.Header
import Verif.Props.Wire
import Verif.Props.Contents
/-!
# What overlapping calls leave in the core (C63, C64, C65)

Overlapping writes can lose updates (C31): the tree of the last block may lack them.  But each write
that was reported has its block, and there are no other blocks.
-/

namespace Hyperbee

open Wire

/-! ## C63 -/

/-- Nothing written yet. -/
theorem kept_from (s : St) (Lost : Nat → Prop) {E : Nat → Reply → Option Write} {G : Nat → Budget} {ps : List (Prog Reply)}
    (h : ∀ i p, ps[i]? = some p → Scribe s.core.length (E i) Reply.block Prog.fails (G i) p 0) :
    Kept s.core.length Lost E G [] ps s :=
  ⟨fun i p hp => .inl ⟨G i, 0, Nat.zero_le _, h i p hp, (fun e he => by cases he), .inr ⟨rfl, fun e he => by cases he⟩⟩,
    (fun e he => by cases he), (fun j e w hj => by cases hj), List.nodup_nil⟩

theorem kept_start (s : St) (cs : List Cmd) :
    Kept s.core.length (fun _ => False) (fun i r => (cs[i]?).bind fun c => effect c r) (fun i => (cs[i]?).bind Cmd.header) []
      (cs.map Prog.exec) s := by
  refine kept_from s _ fun i p hp => ?_
  rw [List.getElem?_map] at hp
  obtain ⟨c, hc, rfl⟩ := Option.map_eq_some_iff.mp hp
  simp only [hc, Option.bind_some]
  exact scribe_exec _ c

/-- What the log says. -/
theorem Kept.told {core0 : List Bytes} {Lost : Nat → Prop} {E : Nat → Reply → Option Write} {G : Nat → Budget}
    {ps : List (Prog Reply)} {t : St} {log : List Entry} (hcore : t.core = core0 ++ log.map Entry.block)
    (h : Kept core0.length Lost E G log ps t) :
    ∃ log : List (Nat × Option Write × Bytes),
      t.core = core0 ++ log.map (fun e => e.2.2) ∧
      (∀ i w b, (i, some w, b) ∈ log → ∃ r nodes, ps[i]?.bind Prog.result = some r ∧
        (E i r = some w ∨ Lost i ∧ r = .error .core ∧ ∃ r', E i r' = some w) ∧
        CBlock w.stored.1 w.stored.2 nodes b) ∧
      (∀ i r w, ps[i]?.bind Prog.result = some r → E i r = some w → ∃ b, (i, some w, b) ∈ log) ∧
      (∀ i b, (i, none, b) ∈ log → core0 = [] ∧ ∃ m : Option Metadata, G i = some m ∧
        CHeader hyperbeeName (m.map fun m => (m.contentFeed, m.userData)) b) ∧
      (log.map fun e => (e.1, e.2.1.isSome)).Nodup ∧
      ∀ j i w b q, log[j]? = some (i, some w, b) →
        ((∃ o, ps[i]?.bind Prog.result = some (.put o q)) ∨
          ∃ o, ps[i]?.bind Prog.result = some (.putCas o (some q))) →
        q ≤ core0.length + j := by
  have hmem : ∀ {i o b}, (i, o, b) ∈ log.map (fun e : Entry => (e.call, e.wrote, e.block)) →
      ∃ e ∈ log, e.call = i ∧ e.wrote = o ∧ e.block = b := by
    intro i o b hm
    obtain ⟨e, he, heq⟩ := List.mem_map.mp hm
    cases heq
    exact ⟨e, he, rfl, rfl, rfl⟩
  refine ⟨log.map fun e => (e.call, e.wrote, e.block), ?_, ?_, ?_, ?_, ?_, ?_⟩
  · rw [hcore, List.map_map]
    rfl
  · intro i w b hm
    obtain ⟨e, he, rfl, hw, rfl⟩ := hmem hm
    obtain ⟨j, hj⟩ := List.mem_iff_getElem?.mp he
    obtain ⟨r, hr, hE, _, ns, hb⟩ := h.blocks j e w hj hw
    refine ⟨r, ns.map shape, ?_, hE, ?_⟩
    · rw [hr]; rfl
    · rw [hb]; exact block_encode _ _ _
  · intro i r w hr hE
    obtain ⟨p, hp, hpr⟩ := Option.bind_eq_some_iff.mp hr
    obtain rfl : p = .pure r := by
      cases p with
      | pure a => cases hpr; rfl
      | throw e => cases hpr
      | step x k => cases hpr
    rcases h.each i _ hp with ⟨g, n, _, hS, _⟩ | ⟨r', w', hr', hE', e, he, hei, hew⟩ | ⟨hr', hE'⟩
    · have : E i r = none := hS
      rw [hE] at this
      cases this
    · cases hr'
      rw [hE] at hE'
      cases hE'
      exact ⟨e.block, List.mem_map.mpr ⟨e, he, by rw [hei, hew]⟩⟩
    · cases hr'
      rw [hE] at hE'
      cases hE'
  · intro i b hm
    obtain ⟨e, he, rfl, hw, rfl⟩ := hmem hm
    obtain ⟨hn, m, hm, hb⟩ := h.headers e he hw
    refine ⟨List.eq_nil_of_length_eq_zero hn, m, hm, ?_⟩
    rw [hb]
    exact header_encode _ _
  · rw [List.map_map]
    exact h.once
  · intro j i w b q hj hq
    rw [List.getElem?_map] at hj
    obtain ⟨e, hje, heq⟩ := Option.map_eq_some_iff.mp hj
    obtain ⟨rfl, hw, rfl⟩ : e.call = i ∧ e.wrote = some w ∧ e.block = b := by
      simpa only [Prod.mk.injEq] using heq
    obtain ⟨r, hr, hE, hl, _⟩ := h.blocks j e w hje hw
    rw [hr] at hq
    rcases hq with ⟨o, hq⟩ | ⟨o, hq⟩
    · cases hq
      exact hl
    · cases hq
      exact hl

theorem header_told {c : Cmd} {m : Option Metadata} {b : Bytes} (hm : c.header = some m)
    (hb : CHeader hyperbeeName (m.map fun m => (m.contentFeed, m.userData)) b) :
    (∃ m : Option Metadata, c = .createHeader m ∧ CHeader hyperbeeName (m.map fun m => (m.contentFeed, m.userData)) b) ∨
      (∃ k v, c = .put k v ∨ ∃ cas, c = .putCas k v cas) ∧ CHeader hyperbeeName none b := by
  cases c with
  | createHeader m' =>
    cases hm
    exact .inl ⟨m, rfl, hb⟩
  | put k v =>
    cases hm
    exact .inr ⟨⟨k, v, .inl rfl⟩, hb⟩
  | putCas k v cas =>
    cases hm
    exact .inr ⟨⟨k, v, .inr ⟨cas, rfl⟩⟩, hb⟩
  | _ => cases hm

theorem Kept.faithful {core0 : List Bytes} {cs : List Cmd} {ps : List (Prog Reply)} {t : St} {log : List Entry}
    (hl : ps.length = cs.length) (hcore : t.core = core0 ++ log.map Entry.block)
    (h : Kept core0.length (fun _ => False) (fun i r => (cs[i]?).bind fun c => effect c r) (fun i => (cs[i]?).bind Cmd.header)
      log ps t) :
    ∃ log : List (Nat × Option Write × Bytes),
      t.core = core0 ++ log.map (fun e => e.2.2) ∧
      (∀ i w b, (i, some w, b) ∈ log → ∃ c r nodes, cs[i]? = some c ∧
        ps[i]?.bind Prog.result = some r ∧ effect c r = some w ∧
        CBlock w.stored.1 w.stored.2 nodes b) ∧
      (∀ i c r w, cs[i]? = some c → ps[i]?.bind Prog.result = some r →
        effect c r = some w → ∃ b, (i, some w, b) ∈ log) ∧
      (∀ i b, (i, none, b) ∈ log → core0 = [] ∧ ∃ c, cs[i]? = some c ∧
        ((∃ m : Option Metadata, c = .createHeader m ∧ CHeader hyperbeeName (m.map fun m => (m.contentFeed, m.userData)) b) ∨
          (∃ k v, c = .put k v ∨ ∃ cas, c = .putCas k v cas) ∧ CHeader hyperbeeName none b)) ∧
      (log.map fun e => (e.1, e.2.1.isSome)).Nodup ∧
      -- C64: the number a put reports is not beyond that of its block
      ∀ j i w b q, log[j]? = some (i, some w, b) →
        ((∃ o, ps[i]?.bind Prog.result = some (.put o q)) ∨
          ∃ o, ps[i]?.bind Prog.result = some (.putCas o (some q))) →
        q ≤ core0.length + j := by
  obtain ⟨log, h1, h2, h3, h4, h5⟩ := h.told hcore
  refine ⟨log, h1, fun i w b hm => ?_, fun i c r w hc hr hw => ?_, fun i b hm => ?_, h5⟩
  · obtain ⟨r, nodes, hr, hE | ⟨hf, _⟩, hb⟩ := h2 i w b hm
    · obtain ⟨c, hc, hE⟩ := Option.bind_eq_some_iff.mp hE
      exact ⟨c, r, nodes, hc, hr, hE, hb⟩
    · exact hf.elim
  · exact h3 i r w hr (by rw [hc]; exact hw)
  · obtain ⟨h0, m, hm, hb⟩ := h4 i b hm
    obtain ⟨c, hc, hm⟩ := Option.bind_eq_some_iff.mp hm
    exact ⟨h0, c, hc, header_told hm hb⟩

/-- C63: whatever calls overlap on whatever state, in whatever order their steps come, and whichever
are dropped: the blocks they append are, one for one, the blocks of those calls that returned and by
their reply wrote something, each with the key and the value of its call; and headers, of which there
are none unless the core was empty, and at most one for each call.  The list `log` says for each new
block which call appended it, what that call wrote (`none` for a header), and the block. -/
theorem log_faithful (s : St) (cs : List Cmd) (sched : List Nat) :
    ∃ log : List (Nat × Option Write × Bytes),
      (Prog.interleave sched (cs.map Prog.exec) s).2.core = s.core ++ log.map (fun e => e.2.2) ∧
      (∀ i w b, (i, some w, b) ∈ log → ∃ c r nodes, cs[i]? = some c ∧
        (Prog.interleave sched (cs.map Prog.exec) s).1[i]?.bind Prog.result = some r ∧ effect c r = some w ∧
        CBlock w.stored.1 w.stored.2 nodes b) ∧
      (∀ i c r w, cs[i]? = some c → (Prog.interleave sched (cs.map Prog.exec) s).1[i]?.bind Prog.result = some r →
        effect c r = some w → ∃ b, (i, some w, b) ∈ log) ∧
      (∀ i b, (i, none, b) ∈ log → s.core = [] ∧ ∃ c, cs[i]? = some c ∧
        ((∃ m : Option Metadata, c = .createHeader m ∧ CHeader hyperbeeName (m.map fun m => (m.contentFeed, m.userData)) b) ∨
          (∃ k v, c = .put k v ∨ ∃ cas, c = .putCas k v cas) ∧ CHeader hyperbeeName none b)) ∧
      (log.map fun e => (e.1, e.2.1.isSome)).Nodup ∧
      -- C64: the number a put reports is not beyond that of its block
      ∀ j i w b q, log[j]? = some (i, some w, b) →
        ((∃ o, (Prog.interleave sched (cs.map Prog.exec) s).1[i]?.bind Prog.result = some (.put o q)) ∨
          ∃ o, (Prog.interleave sched (cs.map Prog.exec) s).1[i]?.bind Prog.result = some (.putCas o (some q))) →
        q ≤ s.core.length + j := by
  obtain ⟨log, hcore, h⟩ := Kept.interleave rfl sched (by simp) (kept_start s cs)
  exact h.faithful (by rw [interleave_length, List.length_map]) hcore

/-- Two overlapping puts, one of whose updates is lost (`overlapping_puts_false`): the blocks of both are
there. -/
example : ((Prog.interleave (List.replicate 12 0 ++ List.replicate 10 1 ++ List.replicate 4 0 ++ List.replicate 4 1)
      [Prog.exec (.put [97] (some [1])), Prog.exec (.put [98] (some [2]))] (runSt [.put [99] (some [3])] St.init)).2.core.drop 2).map
    decodeNode = [some ⟨[10, 4, 10, 2, 2, 1], [97], some [1]⟩, some ⟨[10, 5, 10, 3, 2, 2, 1], [98], some [2]⟩] := by
  decide +kernel

/-- Two overlapping first puts: each appends a header and its block. -/
example : ((Prog.interleave ([0, 1, 0, 1] ++ List.replicate 8 0 ++ List.replicate 8 1)
      [Prog.exec (.put [97] (some [1])), Prog.exec (.put [98] (some [2]))] St.init).2.core.map fun b =>
        (decodeNode b).map NodeSchema.key) = [some [], some [97], some [], some [98]] := by decide +kernel

/-! ## C64 -/

/-- C64 fails: two overlapping puts report the same block number, so that for one of them it is not
that of its block. -/
theorem overlapping_seq_false : ∃ s, Reachable s ∧ ∃ sched,
    ((Flight.start [Prog.exec (.put [97] (some [1])), Prog.exec (.put [98] (some [2]))] s).run sched).calls.map
        Prog.result = [some (.put none 2), some (.put none 2)] ∧
    ((Flight.start [Prog.exec (.put [97] (some [1])), Prog.exec (.put [98] (some [2]))] s).run sched).st.core.map
        (fun b => (decodeNode b).map NodeSchema.key) = [some [], some [99], some [97], some [98]] :=
  ⟨runSt [.put [99] (some [3])] St.init, ⟨_, rfl⟩,
    List.replicate 12 0 ++ List.replicate 10 1 ++ List.replicate 4 0 ++ List.replicate 4 1, by decide +kernel,
    by decide +kernel⟩

/-- C64, what does hold: a put that has returned has a block with its key and its value, and the number
it reports is not beyond the number of that block.

Missing from the full statement: that it is the number of that block (`overlapping_seq_false`). -/
theorem overlapping_seq_partial (s : St) (cs : List Cmd) (sched : List Nat) (i : Nat) (k : Bytes) (v : Option Bytes)
    (o : Option Nat) (q : Nat) (hi : cs[i]? = some (.put k v))
    (hr : (Prog.interleave sched (cs.map Prog.exec) s).1[i]?.bind Prog.result = some (.put o q)) :
    ∃ p b nodes, q ≤ p ∧ s.core.length ≤ p ∧ (Prog.interleave sched (cs.map Prog.exec) s).2.core[p]? = some b ∧
      CBlock k v nodes b := by
  obtain ⟨log, hcore, h1, h2, _, _, h3⟩ := log_faithful s cs sched
  obtain ⟨b, hb⟩ := h2 i _ _ _ hi hr rfl
  obtain ⟨j, hj⟩ := List.mem_iff_getElem?.mp hb
  obtain ⟨_, _, nodes, _, _, _, hn⟩ := h1 i _ b hb
  refine ⟨s.core.length + j, b, nodes, h3 j i _ b q hj (.inl ⟨o, hr⟩), by omega, ?_, hn⟩
  rw [hcore, List.getElem?_append_right (by omega), Nat.add_sub_cancel_left, List.getElem?_map, hj]
  rfl

/-- And likewise for a compare-and-swap that has written. -/
theorem overlapping_cas_seq_partial (s : St) (cs : List Cmd) (sched : List Nat) (i : Nat) (k : Bytes) (v : Option Bytes)
    (cas : Option KeyValueData → KeyValueData → Bool) (o : Option Nat) (q : Nat) (hi : cs[i]? = some (.putCas k v cas))
    (hr : (Prog.interleave sched (cs.map Prog.exec) s).1[i]?.bind Prog.result = some (.putCas o (some q))) :
    ∃ p b nodes, q ≤ p ∧ s.core.length ≤ p ∧ (Prog.interleave sched (cs.map Prog.exec) s).2.core[p]? = some b ∧
      CBlock k v nodes b := by
  obtain ⟨log, hcore, h1, h2, _, _, h3⟩ := log_faithful s cs sched
  obtain ⟨b, hb⟩ := h2 i _ _ _ hi hr rfl
  obtain ⟨j, hj⟩ := List.mem_iff_getElem?.mp hb
  obtain ⟨_, _, nodes, _, _, _, hn⟩ := h1 i _ b hb
  refine ⟨s.core.length + j, b, nodes, h3 j i _ b q hj (.inr ⟨o, hr⟩), by omega, ?_, hn⟩
  rw [hcore, List.getElem?_append_right (by omega), Nat.add_sub_cancel_left, List.getElem?_map, hj]
  rfl

/-! ## C65 -/

/-- The last block of the core is a header, though not the first, and is not cached. -/
structure Headless (s : St) : Prop where
  last : ∃ old m, old ≠ [] ∧ s.core = old ++ [encodeHeader ⟨PROTOCOL, m⟩]
  io : s.io = Io.good
  cache : s.cache (s.core.length - 1) = none

theorem Headless.getRoot {s : St} (h : Headless s) (e : Bool) : Hyperbee.getRoot e s = (.error .decode, s) := by
  obtain ⟨⟨old, m, hne, hc⟩, hio, hcache⟩ := h
  obtain ⟨x, h1, h2⟩ := decode_header m
  have hl : s.core.length = old.length + 1 := by rw [hc]; simp
  have hpos : 0 < old.length := List.length_pos_of_ne_nil hne
  have hq : s.core.length - 1 = old.length := by omega
  have hget : s.core[old.length]? = some (encodeHeader ⟨PROTOCOL, m⟩) := by rw [hc]; simp
  have hcore : getFromCore old.length s = (.error .decode, s) := by
    unfold getFromCore
    rw [bind_ok (show coreGet old.length s = (.ok (some (encodeHeader ⟨PROTOCOL, m⟩)), s) by
      simp [coreGet, hio, Io.good, hget])]
    simp only [h1, blockEntryNew, makeNodeVec, h2]
    rfl
  have hblk : blocksGet old.length s = (.error .decode, s) := by
    unfold blocksGet
    rw [bind_ok (show getFromCache old.length s = (.ok none, s) by rw [hq] at hcache; simp [getFromCache, hcache])]
    exact bind_error hcore
  unfold Hyperbee.getRoot
  rw [bind_ok (show version s = (.ok s.core.length, s) from rfl), if_neg (by omega), hq]
  exact bind_error hblk

/-- Whether a call needs the tree. -/
def Cmd.needsTree : Cmd → Bool
  | .get _ | .put _ _ | .putCas _ _ _ | .del _ | .delCas _ _ => true
  | .traverse b _ => match b.build with
    | .ok _ => true
    | .error _ => false
  | _ => false

theorem Headless.exec {s : St} (h : Headless s) (c : Cmd) :
    (c.needsTree = true → (Hyperbee.exec c s).1 = .error .decode) ∧ (Hyperbee.exec c s).2.core = s.core ∧
      Headless (Hyperbee.exec c s).2 := by
  have g := h.getRoot
  have fin : ∀ {α : Type} {m : M α} {f : α → Reply}, m s = (.error .decode, s) → Hyperbee.replyOf m f s = (.error .decode, s) := by
    intro α m f hm
    simp only [Hyperbee.replyOf, hm]
  have key : Hyperbee.exec c s = (.error .decode, s) → (c.needsTree = true → (Hyperbee.exec c s).1 = .error .decode) ∧
      (Hyperbee.exec c s).2.core = s.core ∧ Headless (Hyperbee.exec c s).2 := by
    intro hk
    rw [hk]
    exact ⟨fun _ => rfl, rfl, h⟩
  have hput : ∀ k v cas, putCompareAndSwap k v cas s = (.error .decode, s) := by
    intro k v cas
    unfold putCompareAndSwap putPrepare
    exact bind_error (bind_error (g true))
  have hdel : ∀ k cas, delCompareAndSwap k cas s = (.error .decode, s) := by
    intro k cas
    unfold delCompareAndSwap delPrepare
    exact bind_error (bind_error (g false))
  cases c with
  | version => exact ⟨fun h => (by cases h), rfl, h⟩
  | get k => exact key (fin (by unfold Hyperbee.get; exact bind_error (g false)))
  | put k v => exact key (fin (by unfold Hyperbee.put; exact bind_error (hput _ _ _)))
  | putCas k v cas => exact key (fin (hput _ _ _))
  | del k => exact key (fin (by unfold Hyperbee.del; exact bind_error (hdel _ _)))
  | delCas k cas => exact key (fin (hdel _ _))
  | createHeader m =>
    have : createHeader m s = (.error .headerAlreadyExists, s) := by
      obtain ⟨⟨old, m', hne, hc⟩, _, _⟩ := h
      unfold createHeader
      rw [bind_ok (show version s = (.ok s.core.length, s) from rfl), if_pos (by rw [hc]; simp)]
      rfl
    have : Hyperbee.exec (.createHeader m) s = (.error .headerAlreadyExists, s) := by
      show Hyperbee.replyOf _ _ s = _
      simp only [Hyperbee.replyOf, this]
    rw [this]
    exact ⟨fun h => (by cases h), rfl, h⟩
  | reopen =>
    obtain ⟨hl, _, _⟩ := h
    exact ⟨fun h => (by cases h), rfl, hl, rfl, rfl⟩
  | traverse b rs =>
    cases hb : b.build with
    | error e =>
      have : Hyperbee.exec (.traverse b rs) s = (.error e, s) := by
        show Hyperbee.replyOf _ _ s = _
        simp only [Hyperbee.replyOf, traverseSession, hb]
        rfl
      rw [this]
      refine ⟨fun h => ?_, rfl, h⟩
      simp only [Cmd.needsTree, hb] at h
      cases h
    | ok conf =>
      refine key (fin ?_)
      unfold traverseSession
      rw [hb]
      dsimp only
      unfold collect traverse
      exact bind_error (bind_error (bind_error (g false)))

theorem Headless.run (cs : List Cmd) : ∀ {s : St}, Headless s → (Hyperbee.runSt cs s).core = s.core ∧
    ∀ (i : Nat) (c : Cmd), cs[i]? = some c → c.needsTree = true → (runReplies cs s)[i]? = some (.error .decode) := by
  induction cs with
  | nil => exact fun _ => ⟨rfl, fun i c h => by cases h⟩
  | cons c cs ih =>
    intro s h
    obtain ⟨h1, h2, h3⟩ := h.exec c
    obtain ⟨h4, h5⟩ := ih h3
    refine ⟨h4.trans h2, fun i c' hi hn => ?_⟩
    cases i with
    | zero =>
      cases hi
      exact congrArg some (h1 hn)
    | succ i => exact h5 i c' hi hn

/-- C65 fails: two overlapping calls of `create_header` both succeed.  There are two headers then, and no
call can use the database any more: whatever is done, through this handle or after opening the core
again, each get, put, deletion and traversal fails, and nothing is appended. -/
theorem overlapping_headers_false (m m' : Option Metadata) : ∃ sched,
    ((Flight.start [Prog.exec (.createHeader m), Prog.exec (.createHeader m')] St.init).run sched).calls.map Prog.result =
      [some (.created 1), some (.created 2)] ∧
    ∀ cs : List Cmd,
      let s := ((Flight.start [Prog.exec (.createHeader m), Prog.exec (.createHeader m')] St.init).run sched).st
      s.core.length = 2 ∧ (runSt cs s).core = s.core ∧
      ∀ (i : Nat) (c : Cmd), cs[i]? = some c → c.needsTree = true → (runReplies cs s)[i]? = some (.error .decode) := by
  refine ⟨[0, 1, 0, 1], rfl, fun cs => ⟨rfl, ?_⟩⟩
  exact Headless.run cs ⟨⟨[encodeHeader ⟨PROTOCOL, m⟩], m', by simp, rfl⟩, rfl, rfl⟩

/-- So it is when a first put overlaps `create_header`, or when another first put is dropped having written its
header. -/
theorem overlapping_first_put_false : ∃ sched,
    ((Flight.start [Prog.exec (.createHeader none), Prog.exec (.put [1] none)] St.init).run sched).calls.map Prog.result =
      [some (.created 3), some (.put none 1)] ∧
    runReplies [.get [1], .put [2] none, .reopen, .get [1]]
      ((Flight.start [Prog.exec (.createHeader none), Prog.exec (.put [1] none)] St.init).run sched).st =
      [.error .decode, .error .decode, .opened, .error .decode] :=
  ⟨[1, 1, 0] ++ List.replicate 40 1 ++ List.replicate 40 0, by decide +kernel, by decide +kernel⟩

/-- C65, what does hold: calls that overlap on a core that is not empty append no header.

Missing from the full statement: that calls overlapping on an empty core append just one
(`overlapping_headers_false`). -/
theorem overlapping_headers_partial {s : St} (hs : s.core ≠ []) (cs : List Cmd) (sched : List Nat) (p : Nat) (b : Bytes)
    (hp : s.core.length ≤ p) (hb : (Prog.interleave sched (cs.map Prog.exec) s).2.core[p]? = some b) :
    ∃ (i : Nat) (c : Cmd) (r : Reply) (w : Write) (nodes : List (List Nat × List (Nat × Nat))), cs[i]? = some c ∧
      (Prog.interleave sched (cs.map Prog.exec) s).1[i]?.bind Prog.result = some r ∧ effect c r = some w ∧
      CBlock w.stored.1 w.stored.2 nodes b := by
  obtain ⟨log, hcore, h1, _, h2, _, _⟩ := log_faithful s cs sched
  rw [hcore, List.getElem?_append_right hp, List.getElem?_map] at hb
  obtain ⟨⟨i, o, b'⟩, he, rfl⟩ := Option.map_eq_some_iff.mp hb
  have hm := List.mem_of_getElem? he
  cases o with
  | none => exact absurd (h2 i b' hm).1 hs
  | some w =>
    obtain ⟨c, r, nodes, h⟩ := h1 i w b' hm
    exact ⟨i, c, r, w, nodes, h⟩

/-- The run of `overlapping_seq_false` starts on a core of two blocks. -/
example : (runSt [.put [99] (some [3])] St.init).core.length = 2 := by decide +kernel

end Hyperbee
