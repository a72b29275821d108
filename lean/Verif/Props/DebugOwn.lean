import Verif.Proof.DebugOwn
import Verif.Props.Debug
import Verif.Props.Own
/-!
# `height` and `print` while others write (C103)
-/

namespace Hyperbee

/-! ## C103 -/

open Classical in
/-- What a reading call shows of the tree stored in a core. -/
def TellsOf (core : List Bytes) : Ask → Said → Prop
  | .call c, r => r = .reply (exec c (St.open core)).1
  | .height, r => ∃ n, r = .height n ∧ (core.length ≤ 1 → n = 0) ∧
      (2 ≤ core.length → ∃ t, StoresRoot core t ∧ t.leafDepths ≠ [] ∧ ∀ d ∈ t.leafDepths, d = n)
  | .print sched, r => (core.length ≤ 1 → r = .error .noRoot) ∧
      (2 ≤ core.length → ∃ t, StoresRoot core t ∧
        (5 + 4 * t.inorder.length ≤ sched.count true → r ≠ .text none) ∧
        (r = .text none ∨ r = if ∀ k ∈ t.inorder, IsText k.2 then .text (some ((t.outline 0).flatMap line))
          else .error .keyFromUtf8))

theorem Holds.tellsOf {s : St} {d : Db} (h : Holds s d) {c : Ask} (hc : ∀ c', c ≠ .call c') : TellsOf s.core c (ask c s).1 := by
  cases c with
  | call c => exact absurd rfl (hc c)
  | height =>
    obtain ⟨n, s', h1, _, h2⟩ := h.height_levels
    exact ⟨n, by simp only [ask, h1]; rfl, h2⟩
  | print sched =>
    refine ⟨fun hl => by simp only [ask, print_no_root hl]; rfl, fun hl => ?_⟩
    obtain ⟨t, h1, h2⟩ := h.print_outline hl
    obtain ⟨r, s', h3, _, h4, h5⟩ := h2 sched
    refine ⟨t, h1, fun hn he => ?_, ?_⟩
    · simp only [ask, h3] at he
      refine h4 hn ?_
      cases r with
      | ok x => cases he; rfl
      | error e => cases he
    · simp only [ask, h3]
      rcases h5 with rfl | rfl
      · exact .inl rfl
      · refine .inr ?_
        split <;> rfl

theorem ideal_ask_at {s : St} (hs : Rooms s) {c : Ask} (hc : c.looks = true) : ideal s (Prog.ask c) = .ok (ask c s).1 := by
  obtain ⟨Γ, _, _, h⟩ := (sim_ask (s0 := s) (esc := false) hc).run (inv_start hs)
  rw [run_ask _ (by intro he; rw [he] at hc; cases hc)] at h
  revert h
  cases ideal s (Prog.ask c) with
  | error e => exact fun h => h.elim
  | ok a => exact fun h => congrArg Except.ok (Eq.symm h)

/-- C103.  Any calls, reading or writing, through any handles, overlap in any way.  `height` or `print` (or another reading
call) through a handle that nobody writes through meanwhile shows the tree as it was stored at the moment of its first
step, whatever is written while it is under way, if the core was then one that some history on an empty core leads to.
The handle is as `earlier` calls have left it, as in C66. -/
theorem debug_is_snapshot (w : World) (earlier : List (Nat × Cmd)) (calls : List (Nat × Ask)) (i h : Nat) (c : Ask)
    (hi : calls[i]? = some (h, c)) (hused : w.handles h = (World.run earlier World.init).2.handles h)
    (hgrown : (World.run earlier World.init).2.core <+: w.core)
    (hown : ∀ c', (h, c') ∈ calls → c'.looks = true)
    (before after : List Nat) (hfirst : i ∉ before) (past : List Cmd) :
    let start := calls.map fun x => (x.1, Prog.ask x.2)
    let core := (World.interleave before start w).2.core
    core = (runSt past St.init).core →
    ∀ r, World.result (World.interleave (before ++ i :: after) start w) i = some r → TellsOf core c r := by
  intro start core hcore r hr
  have hc : c.looks = true := hown c (List.mem_of_getElem? hi)
  have hs : Reachable (runSt past St.init) := ⟨past, rfl⟩
  have hb := World.All.init.run earlier h
  generalize hbs : (World.run earlier World.init).2.at h = b at hb
  have hat : w.at h = b.on w.core := by
    rw [← hbs]
    simp only [World.at, St.on, hused]
  have hbc : b.core <+: core := by
    rw [← hbs]
    exact hgrown.trans (World.interleave_grows before start w)
  obtain ⟨d', hd'⟩ := hb.catch_up past (by rw [← hcore]; exact hbc)
  rw [← hcore] at hd'
  obtain ⟨G, hG⟩ := hd'.fenced
  have hid : ideal (b.on core) (Prog.ask c) = .ok (ask c (b.on core)).1 := ideal_ask_at hd'.wf.rooms hc
  have hthen : ThenB b G core (Prog.ask c) EqR ∨ ∃ r, Prog.ask c = .pure r ∧ ideal (b.on core) (Prog.ask c) = .ok r := by
    cases c with
    | call c =>
      have hne : ideal (b.on core) (Prog.exec c) ≠ .ok (.error .diverge) := by
        rw [ideal_exec_at hd'.wf.rooms hc]
        obtain ⟨d, hd⟩ := hs.holds
        rw [(call_same hd' hd hcore.symm c).1]
        have := no_failure hs c
        intro he
        simp only [Except.ok.injEq] at he
        cases c with
        | version => exact this _ he
        | get k => exact this _ he
        | traverse b rs =>
          rcases this with ⟨_, h⟩ | ⟨_, h⟩ | ⟨xs, f, h⟩
          · rw [he] at h; cases h
          · rw [he] at h; cases h
          · rw [he] at h; cases h
        | _ => cases hc
      rcases thenB_exec hG hc hne with h | ⟨r, h1, h2⟩
      · exact .inl h.said
      · refine .inr ⟨.reply r, ?_, ?_⟩
        · show Prog.said _ (Prog.exec c) = _
          rw [h1]; rfl
        · show ideal _ (Prog.said _ (Prog.exec c)) = _
          rw [ideal_said, h2]; rfl
    | height =>
      refine .inl (thenB_height hG ?_).said
      intro he
      have h1 : ideal (b.on core) (Prog.said .height Prog.height) = .ok (ask .height (b.on core)).1 := hid
      rw [ideal_said, he] at h1
      obtain ⟨n, h2, _⟩ := hd'.tellsOf (c := .height) (fun _ h => by cases h)
      rw [h2] at h1
      cases h1
    | print sched =>
      refine .inl (thenB_print hG sched ?_).said
      intro he
      have h1 : ideal (b.on core) (Prog.said .text (Prog.print sched)) = .ok (ask (.print sched) (b.on core)).1 := hid
      rw [ideal_said, he] at h1
      have h2 := hd'.tellsOf (c := .print sched) (fun _ h => by cases h)
      rw [← Except.ok.inj h1] at h2
      rcases Nat.lt_or_ge 1 (b.on core).core.length with hl | hl
      · obtain ⟨t, _, _, h3⟩ := h2.2 hl
        rcases h3 with h3 | h3
        · cases h3
        · split at h3 <;> cases h3
      · cases h2.1 hl
  have h1 := World.first_read (b := b) (G := G) (w := w) (h := h) (i := i) (P := Prog.ask c) start hb.wf.rooms hat
    (by simp [start, hi]) (by
      intro j p hj
      simp only [start, List.getElem?_map, Option.map_eq_some_iff] at hj
      obtain ⟨⟨h', c'⟩, hx, hy⟩ := hj
      simp only [Prod.mk.injEq] at hy
      obtain ⟨rfl, rfl⟩ := hy
      exact loader_ask (hown c' (List.mem_of_getElem? hx)))
    before after hfirst hthen r hr
  have h2 : r = (ask c (b.on core)).1 := by
    have h1 : ideal (b.on core) (Prog.ask c) = .ok r := h1
    rw [hid] at h1
    exact (Except.ok.inj h1).symm
  rw [h2]
  by_cases hcall : ∃ c', c = .call c'
  · obtain ⟨c', rfl⟩ := hcall
    obtain ⟨d, hd⟩ := hs.holds
    have hopen := hd.stored.open
    rw [← hcore] at hopen
    exact congrArg Said.reply (call_same hd' hopen rfl c').1
  · exact hd'.tellsOf fun c' he => hcall ⟨c', he⟩

/-- Handle 1 prints and asks for the height while handle 0 puts the ninth key, which splits the root.  Both
begin before the put has appended its block and end after it: they show the tree of one level. -/
example :
    let w := (World.run ((ascending.take 8).map fun c => (0, c)) World.init).2
    let ready := List.replicate 60 true
    let start := [((0 : Nat), Ask.call (ascending.getD 8 .version)), (1, .print ready), (1, .height)].map
      fun x => (x.1, Prog.ask x.2)
    let sched := [1, 2] ++ List.replicate 200 0 ++ (List.replicate 500 [1, 2]).flatten
    [0, 1, 2].map (World.result (World.interleave sched start w)) =
      [some (.reply (.put none 9)), some (.text (some [0, 10, 1, 10, 2, 10, 3, 10, 4, 10, 5, 10, 6, 10, 7, 10])),
        some (.height 1)] ∧
    (ask .height ((World.interleave sched start w).2.at 1)).1 = .height 2 := by
  decide +kernel

end Hyperbee
