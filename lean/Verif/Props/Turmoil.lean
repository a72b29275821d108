import Verif.Proof.Turmoil
import Verif.Props.Rivals
import Verif.Props.Meddle
import Verif.Props.Prefixed
/-!
# Calls that overlap while things go wrong (C96, C97)
-/

namespace Hyperbee

open Wire

/-! ## C96 -/

theorem Kept.turmoil {n : Nat} {Lost : Nat → Prop} {E : Nat → Reply → Option Write} {G : Nat → Budget} {core0 : List Bytes}
    (hn : core0.length = n) (sched : List (Nat × Option Trouble)) :
    ∀ {log : List Entry} {ps : List (Nat × Prog Reply)} {w : World},
    (∀ i, (i, some (.append .stored)) ∈ sched → Lost i) →
    w.core = core0 ++ log.map Entry.block → Kept n Lost E G log (ps.map (·.2)) (w.at 0) →
    ∃ log', (World.turmoil sched ps w).2.core = core0 ++ log'.map Entry.block ∧
      Kept n Lost E G log' ((World.turmoil sched ps w).1.map (·.2)) ((World.turmoil sched ps w).2.at 0) := by
  induction sched with
  | nil => exact fun _ hc h => ⟨_, hc, h⟩
  | cons x xs ih =>
    intro log ps w hl hc h
    obtain ⟨i, o⟩ := x
    have hl' : ∀ i, (i, some (.append .stored)) ∈ xs → Lost i := fun i hi => hl i (List.mem_cons_of_mem _ hi)
    unfold World.turmoil
    split
    · exact ih hl' hc h
    · next hd p hp =>
      have hp' : (ps.map (·.2))[i]? = some p := by rw [List.getElem?_map, hp]; rfl
      have h1 : Kept n Lost E G log (ps.map (·.2)) (w.at hd) := h.at rfl
      obtain ⟨log', hc', h'⟩ := h1.stepTroubled (s := w.at hd) hn hc hp' (o := o) fun ho => hl i (by rw [ho]; simp)
      refine ih (log := log') hl' hc' ?_
      rw [List.map_set]
      exact h'.at rfl

/-- C96: whatever calls overlap, on whatever state, through whatever handles and sub-databases, in whatever
order their steps come, whichever reads and appends fail and whichever calls are dropped: the blocks
appended are those of the calls that returned and by their reply wrote something; at most one for each call
that returned the core's error, and that only if an append of this call failed though the block was stored;
and headers, of which there are none unless the core was empty, and at most one for each call.  Each block
has the key, with prefix and separator, and the value of its call.  The list `log` says for each new block
which call appended it, what that call wrote (`none` for a header), and the block. -/
theorem turmoil_log (w : World) (cs : List (Nat × Option Prefixed × Cmd)) (sched : List (Nat × Option Trouble)) :
    ∃ log : List (Nat × Option Write × Bytes),
      (World.turmoil sched (flightsVia cs) w).2.core = w.core ++ log.map (fun e => e.2.2) ∧
      (∀ i wr b, (i, some wr, b) ∈ log → ∃ h x r nodes, cs[i]? = some (h, x) ∧
        World.result (World.turmoil sched (flightsVia cs) w) i = some r ∧
        (effectVia x r = some wr ∨
          (i, some (.append .stored)) ∈ sched ∧ r = .error .core ∧ ∃ r', effectVia x r' = some wr) ∧
        CBlock wr.stored.1 wr.stored.2 nodes b) ∧
      (∀ i h x r wr, cs[i]? = some (h, x) → World.result (World.turmoil sched (flightsVia cs) w) i = some r →
        effectVia x r = some wr → ∃ b, (i, some wr, b) ∈ log) ∧
      (∀ i b, (i, none, b) ∈ log → w.core = [] ∧ ∃ h p c, cs[i]? = some (h, p, c) ∧
        ((∃ m : Option Metadata, c = .createHeader m ∧ CHeader hyperbeeName (m.map fun m => (m.contentFeed, m.userData)) b) ∨
          (∃ k v, c = .put k v ∨ ∃ cas, c = .putCas k v cas) ∧ CHeader hyperbeeName none b)) ∧
      (log.map fun e => (e.1, e.2.1.isSome)).Nodup ∧
      -- the number a put reports is not beyond that of its block
      ∀ j i wr b q, log[j]? = some (i, some wr, b) →
        ((∃ o, World.result (World.turmoil sched (flightsVia cs) w) i = some (.put o q)) ∨
          ∃ o, World.result (World.turmoil sched (flightsVia cs) w) i = some (.putCas o (some q))) →
        q ≤ w.core.length + j := by
  have h0 : Kept w.core.length (fun i => (i, some (.append .stored)) ∈ sched)
      (fun i r => (cs[i]?).bind fun x => effectVia x.2 r) (fun i => (cs[i]?).bind fun x => x.2.2.header) []
      ((flightsVia cs).map (·.2)) (w.at 0) := by
    refine kept_from (w.at 0) _ fun i p hp => ?_
    unfold flightsVia at hp
    rw [List.map_map, List.getElem?_map] at hp
    obtain ⟨x, hx, rfl⟩ := Option.map_eq_some_iff.mp hp
    simp only [hx, Option.bind_some]
    exact scribe_execVia _ x.2
  obtain ⟨log, hcore, h⟩ := Kept.turmoil (w := w) (core0 := w.core) rfl sched (fun _ h => h) (by simp) h0
  have hr : ∀ i, (((World.turmoil sched (flightsVia cs) w).1.map (·.2))[i]?.bind Prog.result) =
      World.result (World.turmoil sched (flightsVia cs) w) i := by
    intro i
    unfold World.result
    rw [List.getElem?_map]
    cases (World.turmoil sched (flightsVia cs) w).1[i]? <;> rfl
  obtain ⟨log, h1, h2, h3, h4, h5, h6⟩ := h.told (core0 := w.core) hcore
  refine ⟨log, h1, fun i wr b hb => ?_, fun i h x r wr hi hres hef => ?_, fun i b hb => ?_, h5, fun j i wr b q hj hq => ?_⟩
  · obtain ⟨r, nodes, e1, e2, e3⟩ := h2 i wr b hb
    rw [hr] at e1
    rcases e2 with e2 | ⟨e2, e4, r', e5⟩
    · obtain ⟨⟨h, x⟩, hx, e2⟩ := Option.bind_eq_some_iff.mp e2
      exact ⟨h, x, r, nodes, hx, e1, .inl e2, e3⟩
    · obtain ⟨⟨h, x⟩, hx, e5⟩ := Option.bind_eq_some_iff.mp e5
      exact ⟨h, x, r, nodes, hx, e1, .inr ⟨e2, e4, r', e5⟩, e3⟩
  · exact h3 i r wr (by rw [hr]; exact hres) (by rw [hi]; exact hef)
  · obtain ⟨e0, m, e1, e2⟩ := h4 i b hb
    obtain ⟨⟨h, p, c⟩, hx, e1⟩ := Option.bind_eq_some_iff.mp e1
    exact ⟨e0, h, p, c, hx, header_told e1 e2⟩
  · refine h6 j i wr b q hj ?_
    rw [hr]
    exact hq

/-- Two puts through handle 0 overlap, one of them through a sub-database, and one through handle 1; then
two traversals, and a get that cannot read. -/
def turmoilCalls : List (Nat × Option Prefixed × Cmd) :=
  [(0, none, .put [99] (some [3])), (0, none, .put [97] (some [1])), (0, some ⟨[112], [0]⟩, .put [98] (some [2])),
    (1, none, .put [100] none), (2, some ⟨[112], [0]⟩, .traverse {} (List.replicate 12 true)),
    (3, none, .traverse {} (List.replicate 14 true)), (4, none, .get [99])]

/-- The order of their steps, and what goes wrong: the append of the second put of the two fails though its
block is stored, that through handle 1 is refused. -/
def turmoilSched : List (Nat × Option Trouble) :=
  List.replicate 9 (0, none) ++ List.replicate 12 (1, none) ++ List.replicate 8 (3, none) ++
    List.replicate 30 (2, some (.append .stored)) ++ List.replicate 8 (1, none) ++
    List.replicate 30 (3, some (.append .refused)) ++ List.replicate 30 (4, none) ++ List.replicate 30 (5, none) ++
    (6, none) :: List.replicate 9 (6, some (.read .io))

/-- The replies. -/
example : (List.range 7).map (World.result (World.turmoil turmoilSched (flightsVia turmoilCalls) World.init)) =
    [some (.put none 1), some (.put none 2), some (.error .core), some (.error .core),
      some (.items [.ok ⟨2, [98], some [2]⟩] true),
      some (.items [.ok ⟨2, [112, 0, 98], some [2]⟩, .ok ⟨1, [99], some [3]⟩, .ok ⟨2, [112, 0, 98], some [2]⟩] true),
      some (.error .core)] := by decide +kernel

/-- The blocks: the header, and those of the three puts in whose appending nothing was refused. -/
example : (World.turmoil turmoilSched (flightsVia turmoilCalls) World.init).2.core.map
      (fun b => (decodeNode b).map fun m => (m.key, m.value)) =
    [some ([], none), some ([99], some [3]), some ([112, 0, 98], some [2]), some ([97], some [1])] := by decide +kernel

/-! ## C97 -/

/-- C97: calls through any handles and sub-databases, beginning with an empty core, may overlap as they
like, and any reads and appends may fail.  What a get or a traversal reports was written: the block it
names is the block of a write, not a header, and what is reported is what that write stored; and the key is
in the range asked for.  (`log` is that of C96, and says for every block of the core which call it is
from.) -/
theorem turmoil_honest (cs : List (Nat × Option Prefixed × Cmd)) (sched : List (Nat × Option Trouble)) :
    ∃ log : List (Nat × Option Write × Bytes),
      (World.turmoil sched (flightsVia cs) World.init).2.core = log.map (fun e => e.2.2) ∧
      (∀ i wr b, (i, some wr, b) ∈ log → ∃ h x r nodes, cs[i]? = some (h, x) ∧
        World.result (World.turmoil sched (flightsVia cs) World.init) i = some r ∧
        (effectVia x r = some wr ∨
          (i, some (.append .stored)) ∈ sched ∧ r = .error .core ∧ ∃ r', effectVia x r' = some wr) ∧
        CBlock wr.stored.1 wr.stored.2 nodes b) ∧
      (∀ i q v, World.result (World.turmoil sched (flightsVia cs) World.init) i = some (.got (some (q, v))) →
        ∃ j wr b, log[q]? = some (j, some wr, b) ∧ wr.stored.2 = v) ∧
      (∀ i h p b rs conf xs fin e, cs[i]? = some (h, p, .traverse b rs) → b.build = .ok conf →
        World.result (World.turmoil sched (flightsVia cs) World.init) i = some (.items xs fin) → .ok e ∈ xs →
        ∃ j wr bl k, log[e.seq]? = some (j, some wr, bl) ∧ wr.stored = (k, e.value) ∧
          (p = none → e.key = k ∧ InRange conf k) ∧
          ∀ p', p = some p' → p'.len ≤ k.length ∧ e.key = k.drop p'.len ∧ (Uncrossed p' conf → Passes p' conf k)) := by
  obtain ⟨log, h1, h2, _, h4, _⟩ := turmoil_log World.init cs sched
  rw [show World.init.core = [] from rfl, List.nil_append] at h1
  refine ⟨log, h1, h2, ?_⟩
  generalize hFe : (World.turmoil sched (flightsVia cs) World.init).2.core = F at h1
  -- an entry that is read is that of a write
  have wrote : ∀ {q k v}, Told F q k v → ∃ j wr b, log[q]? = some (j, some wr, b) ∧ wr.stored = (k, v) := by
    intro q k v ⟨b, m, e1, e2, e3, e4, e5⟩
    rw [h1, List.getElem?_map] at e1
    obtain ⟨⟨j, o, b'⟩, hj, rfl⟩ := Option.map_eq_some_iff.mp e1
    cases o with
    | none =>
      exfalso
      obtain ⟨_, _, _, _, _, hh⟩ := h4 j b' (List.mem_of_getElem? hj)
      have hb : ∃ m', b' = encodeHeader ⟨PROTOCOL, m'⟩ := by
        rcases hh with ⟨m, _, hh⟩ | ⟨_, hh⟩
        · exact ⟨m, hh.unique (header_encode _ m)⟩
        · exact ⟨none, hh.unique (header_encode _ none)⟩
      obtain ⟨m', rfl⟩ := hb
      obtain ⟨x, x1, x2⟩ := decode_header m'
      dsimp only at e2
      rw [x1] at e2
      cases e2
      exact e5 x2
    | some wr =>
      refine ⟨j, wr, b', hj, ?_⟩
      obtain ⟨_, _, _, nodes, _, _, _, hb⟩ := h2 j wr b' (List.mem_of_getElem? hj)
      rw [hb.eq] at e2
      simp only [encodeBlock, decodeNode_encodeNode, Option.some.injEq] at e2
      subst e2
      exact Prod.ext e3 e4
  have hon := Hon.turmoil (F := F) (Q := fun j r => ∀ x, cs[j]? = some x → CandidlyVia F x.2 r) sched (flightsVia cs) World.init
    (fun i h p hp => by
      unfold flightsVia at hp
      rw [List.getElem?_map] at hp
      obtain ⟨x, hx, he⟩ := Option.map_eq_some_iff.mp hp
      cases he
      refine (hon_execVia F x.2).imp fun r hr y hy => ?_
      rw [hx] at hy
      cases hy
      exact hr)
    (fun i => ⟨List.nil_prefix, fun q e he => by cases he⟩) (by rw [hFe]; exact List.prefix_rfl)
  have said : ∀ {i x r}, cs[i]? = some x → World.result (World.turmoil sched (flightsVia cs) World.init) i = some r →
      CandidlyVia F x.2 r := by
    intro i x r hx hr
    obtain ⟨⟨h, p⟩, hp, hpr⟩ := Option.bind_eq_some_iff.mp hr
    have := hon i h p hp
    cases p with
    | throw e => cases hpr
    | step y k => cases hpr
    | pure a => cases hpr; exact this x hx
  have called : ∀ {i r}, World.result (World.turmoil sched (flightsVia cs) World.init) i = some r → ∃ x, cs[i]? = some x := by
    intro i r hr
    obtain ⟨⟨h, p⟩, hp, _⟩ := Option.bind_eq_some_iff.mp hr
    have hlt := (List.getElem?_eq_some_iff.mp hp).1
    rw [turmoil_length] at hlt
    simp only [flightsVia, List.length_map] at hlt
    exact ⟨_, List.getElem?_eq_getElem hlt⟩
  refine ⟨fun i q v hr => ?_, fun i h p b rs conf xs fin e hi hb hr he => ?_⟩
  · obtain ⟨⟨h, p, c⟩, hx⟩ := called hr
    have hs := said hx hr
    obtain ⟨k, hk⟩ : ∃ k, Told F q k v := by
      cases p with
      | none => exact hs
      | some p => exact hs.1 q v rfl
    obtain ⟨j, wr, b, e1, e2⟩ := wrote hk
    exact ⟨j, wr, b, e1, by rw [e2]⟩
  · have hs := said hi hr
    cases p with
    | none =>
      obtain ⟨k1, k2⟩ := hs e he
      obtain ⟨j, wr, bl, e1, e2⟩ := wrote k1
      exact ⟨j, wr, bl, e.key, e1, e2, fun _ => ⟨rfl, (bounds_check hb e.key).mp (k2 b rs conf rfl hb)⟩, fun _ h => by cases h⟩
    | some p =>
      obtain ⟨k, k1, k2, k3, k4⟩ := hs.2 b rs conf xs fin e rfl hb rfl he
      obtain ⟨j, wr, bl, e1, e2⟩ := wrote k1
      refine ⟨j, wr, bl, k, e1, e2, (fun h => by cases h), fun p' hp => ?_⟩
      cases hp
      exact ⟨k3, k4, fun hu => (boundedConf_range p conf k).mp ((bounded_sound p hb hu k).mp k2)⟩

/-- The traversals of the example above name blocks 1 and 2, and report what these hold. -/
example : ∃ xs fin, World.result (World.turmoil turmoilSched (flightsVia turmoilCalls) World.init) 5 = some (.items xs fin) ∧
    xs.map (fun x => match x with | .ok e => e.seq | .error _ => 0) = [2, 1, 2] :=
  ⟨[.ok ⟨2, [112, 0, 98], some [2]⟩, .ok ⟨1, [99], some [3]⟩, .ok ⟨2, [112, 0, 98], some [2]⟩], true,
    by decide +kernel, by decide +kernel⟩

end Hyperbee
