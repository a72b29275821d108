import Verif.Proof.Used
import Verif.Proof.Space
import Verif.Proof.Load
import Verif.Proof.Handles
import Verif.Proof.Reach
import Verif.Proof.Header
import Verif.Proof.Blame
import Verif.Proof.Fault
/-!
# Readers with handles of their own, among other calls
-/

namespace Hyperbee

/-! ## Reading programs keep to what the core holds -/

/-- The program only loads what the core holds. -/
def Guarded (b : St) : Prog α → Names → List Bytes → Prop
  | .pure _, _, _ => True
  | .throw _, _, _ => True
  | .step x k, Γ, C => ∀ Γg s, Γ.le Γg → C <+: s.core → KnownB b Γg s →
      ∃ Γg', Γg.le Γg' ∧ KnownB b Γg' (x.run s).2 ∧ (x.run s).2.core = s.core ∧ Guarded b (k (x.run s).1) Γg' s.core

theorem Guarded.mono {b : St} {p : Prog α} {Γ Γ' : Names} {C C' : List Bytes} (h : Guarded b p Γ C) (hl : Γ.le Γ') (hC : C <+: C') : Guarded b p Γ' C' := by
  cases p with
  | pure a => trivial
  | throw e => trivial
  | step x k => exact fun Γg s hg hc => h Γg s (hl.trans hg) (hC.trans hc)

theorem known_files (b : St) : Files b.heap.length (fun q => b.cache q = none) false (KnownB b) where
  rd h q := by rw [h.io]; rfl
  miss h hc := h.miss hc
  grow h xs := h.heap xs
  load h hq hb := h.load hq hb
  file h hq hb hr _ := h.file hq hb hr

theorem Fetching.guarded {b : St} {p : Prog α} {Γ : Names} {C : List Bytes}
    (h : Fetching b.heap.length (fun q => b.cache q = none) p Γ C) : Guarded b p Γ C := by
  induction p generalizing Γ C with
  | pure a => trivial
  | throw e => trivial
  | step x k ih =>
    intro Γg s hl hC hk
    obtain ⟨Γg', h1, h2, h3, h4⟩ := h false (KnownB b) (known_files b) Γg s hl hC hk (fun h => by cases h)
    exact ⟨Γg', h1, h2, h3, ih _ h4⟩

theorem Loader.guarded {p : Prog α} (h : Loader α p) (b : St) (Γ : Names) (C : List Bytes) : Guarded b p Γ C :=
  (h.safe _ _ Γ C).guarded

/-! ## Steps on several handles -/

theorem World.next_core (h : Nat) (p : Prog α) (w : World) : w.core <+: (World.next h p w).2.core :=
  Prog.next_grows p (w.at h)

theorem World.interleave_grows : ∀ (sched : List Nat) (ps : List (Nat × Prog α)) (w : World),
    w.core <+: (World.interleave sched ps w).2.core := by
  intro sched
  induction sched with
  | nil => intro ps w; exact List.prefix_refl _
  | cons i is ih =>
    intro ps w
    unfold World.interleave
    split
    · exact ih ps w
    · exact (World.next_core _ _ w).trans (ih _ _)

theorem World.interleave_append : ∀ (a b : List Nat) (ps : List (Nat × Prog α)) (w : World),
    World.interleave (a ++ b) ps w =
      World.interleave b (World.interleave a ps w).1 (World.interleave a ps w).2 := by
  intro a
  induction a with
  | nil => intro b ps w; rfl
  | cons i is ih =>
    intro b ps w
    cases hj : ps[i]? with
    | none => simp only [List.cons_append, World.interleave, hj]; exact ih b ps w
    | some x => simp only [List.cons_append, World.interleave, hj]; exact ih b _ _

/-- A program that is not scheduled does not change. -/
theorem World.interleave_idle {i : Nat} : ∀ (sched : List Nat) (ps : List (Nat × Prog α)) (w : World), i ∉ sched →
    (World.interleave sched ps w).1[i]? = ps[i]? := by
  intro sched
  induction sched with
  | nil => intro ps w _; rfl
  | cons j js ih =>
    intro ps w hi
    simp only [List.mem_cons, not_or] at hi
    unfold World.interleave
    split
    · exact ih ps w hi.2
    · rw [ih _ _ hi.2, List.getElem?_set_ne (by omega)]

/-- A program that has returned stays as it is. -/
theorem World.interleave_done {i h : Nat} {a : α} : ∀ (sched : List Nat) (ps : List (Nat × Prog α)) (w : World),
    ps[i]? = some (h, .pure a) → (World.interleave sched ps w).1[i]? = some (h, .pure a) := by
  intro sched
  induction sched with
  | nil => intro ps w hi; exact hi
  | cons j js ih =>
    intro ps w hi
    unfold World.interleave
    split
    · exact ih ps w hi
    · rename_i h' p hj
      refine ih _ _ ?_
      rw [List.getElem?_set]
      split
      · rename_i hji
        subst hji
        rw [hi] at hj
        cases hj
        rw [if_pos (List.getElem?_eq_some_iff.mp hi).1]
        rfl
      · exact hi

/-- A program stays on its handle. -/
theorem World.interleave_handle : ∀ (sched : List Nat) (ps : List (Nat × Prog α)) (w : World) (i : Nat),
    ((World.interleave sched ps w).1[i]?).map (·.1) = (ps[i]?).map (·.1) := by
  intro sched
  induction sched with
  | nil => intro ps w _; rfl
  | cons j js ih =>
    intro ps w i
    unfold World.interleave
    split
    · exact ih ps w i
    · rename_i h p hj
      rw [ih, List.getElem?_set]
      split
      · rename_i hji
        subst hji
        split
        · rw [hj]; rfl
        · rename_i hlt
          rw [List.getElem?_eq_none (by omega)]
      · rfl

/-- What the programs on one handle maintain, whatever those on other handles do. -/
theorem World.interleave_own {b : St} {h : Nat} {P : Nat → Prog α → Names → List Bytes → Prop}
    (mono : ∀ j p Γ Γ' C C', P j p Γ C → Γ.le Γ' → C <+: C' → P j p Γ' C')
    (step : ∀ j p Γ s, P j p Γ s.core → KnownB b Γ s →
      ∃ Γ', Γ.le Γ' ∧ KnownB b Γ' (p.next s).2 ∧ P j (p.next s).1 Γ' (p.next s).2.core) :
    ∀ (sched : List Nat) (ps : List (Nat × Prog α)) (w : World) (Γ : Names),
    (∀ j p, ps[j]? = some (h, p) → P j p Γ w.core) → KnownB b Γ (w.at h) →
    ∃ Γ', Γ.le Γ' ∧ KnownB b Γ' ((World.interleave sched ps w).2.at h) ∧
      ∀ j p, (World.interleave sched ps w).1[j]? = some (h, p) → P j p Γ' (World.interleave sched ps w).2.core := by
  intro sched
  induction sched with
  | nil => intro ps w Γ hp hk; exact ⟨Γ, .refl Γ, hk, hp⟩
  | cons i is ih =>
    intro ps w Γ hp hk
    unfold World.interleave
    split
    · exact ih ps w Γ hp hk
    · rename_i h' p hi
      by_cases hh : h' = h
      · subst hh
        obtain ⟨Γ1, h1, h2, h3⟩ := step i p Γ (w.at h') (hp i p hi) hk
        obtain ⟨Γ2, g1, g2, g3⟩ := ih (ps.set i (h', (World.next h' p w).1)) (World.next h' p w).2 Γ1 (by
          intro j q hq
          rw [List.getElem?_set] at hq
          split at hq
          · rename_i hij
            subst hij
            split at hq
            · cases hq; exact h3
            · cases hq
          · exact mono j q Γ Γ1 _ _ (hp j q hq) h1 (World.next_core h' p w)) (by
          have : (World.next h' p w).2.at h' = (p.next (w.at h')).2 := w.set_at h' h2.io
          rw [this]
          exact h2)
        exact ⟨Γ2, h1.trans g1, g2, g3⟩
      · refine ih (ps.set i (h', (World.next h' p w).1)) (World.next h' p w).2 Γ (by
          intro j q hq
          rw [List.getElem?_set] at hq
          split at hq
          · split at hq
            · simp only [Option.some.injEq, Prod.mk.injEq] at hq
              exact absurd hq.1 hh
            · cases hq
          · exact mono j q Γ Γ _ _ (hp j q hq) (.refl Γ) (World.next_core h' p w)) ?_
        have : (World.next h' p w).2.at h = { w.at h with core := (World.next h' p w).2.core } :=
          w.set_other _ (Ne.symm hh)
        rw [this]
        exact hk.core (World.next_core h' p w)

theorem Guarded.next {b : St} {p : Prog α} {Γ : Names} {s : St} (h : Guarded b p Γ s.core) (hk : KnownB b Γ s) :
    ∃ Γ', Γ.le Γ' ∧ KnownB b Γ' (p.next s).2 ∧ Guarded b (p.next s).1 Γ' (p.next s).2.core := by
  cases p with
  | pure a => exact ⟨Γ, .refl Γ, hk, trivial⟩
  | throw e => exact ⟨Γ, .refl Γ, hk, trivial⟩
  | step x k =>
    obtain ⟨Γ', h1, h2, h3, h4⟩ := h Γ s (.refl Γ) (List.prefix_refl _) hk
    exact ⟨Γ', h1, h2, by rw [show ((Prog.step x k).next s).2 = (x.run s).2 from rfl, h3]; exact h4⟩

/-- A reader that has started when the core was `F`. -/
def Started (b : St) (F : List Bytes) (Q : Except Err α → Prop) (p : Prog α) (Γ : Names) (C : List Bytes) : Prop :=
  F <+: C ∧ ∃ Γ0, Γ0.le Γ ∧ OkB b F p Γ0 fun _ r => Q r

theorem Started.mono {b : St} {F : List Bytes} {Q : Except Err α → Prop} {p : Prog α} {Γ Γ' : Names} {C C' : List Bytes}
    (h : Started b F Q p Γ C) (hl : Γ.le Γ') (hC : C <+: C') : Started b F Q p Γ' C' := by
  obtain ⟨h1, Γ0, h2, h3⟩ := h
  exact ⟨h1.trans hC, Γ0, h2.trans hl, h3⟩

theorem Started.next {b : St} {F : List Bytes} {Q : Except Err α → Prop} {p : Prog α} {Γ : Names} {s : St}
    (h : Started b F Q p Γ s.core) (hk : KnownB b Γ s) :
    ∃ Γ', Γ.le Γ' ∧ KnownB b Γ' (p.next s).2 ∧ Started b F Q (p.next s).1 Γ' (p.next s).2.core := by
  have h0 := h
  obtain ⟨h1, Γ0, h2, h4⟩ := h
  cases p with
  | pure a => exact ⟨Γ, .refl Γ, hk, h0⟩
  | throw e => exact ⟨Γ, .refl Γ, hk, h0⟩
  | step x k =>
    obtain ⟨Γ', g1, g2, g3, g4⟩ := h4 Γ s h2 h1 hk
    refine ⟨Γ', g1, g2, ?_⟩
    rw [show ((Prog.step x k).next s).2 = (x.run s).2 from rfl, g3]
    exact ⟨h1, Γ', .refl Γ', g4⟩

theorem Started.pure {b : St} {F : List Bytes} {Q : Except Err α → Prop} {a : α} {Γ : Names} {C : List Bytes}
    (h : Started b F Q (.pure a) Γ C) : Q (.ok a) := by
  obtain ⟨_, Γ0, _, h4⟩ := h
  exact h4 Γ0 (.refl Γ0)

/-! ## One reader -/

theorem history_one (c : Cmd) : Prog.history [c] = Prog.exec c >>= fun r => Pure.pure [r] := rfl

/-- A reading call through a handle that is only read through: its reply is the one on the core at the
moment of its first step. -/
theorem World.read_first {b : St} {G : Nat → Prop} {w : World} {h i : Nat} {c : Cmd} (ps : List (Nat × Prog (List Reply)))
    (hb : Rooms b) (hat : w.at h = b.on w.core) (hi : ps[i]? = some (h, Prog.history [c])) (hc : c.looks = true)
    (hown : ∀ (j : Nat) (p : Prog (List Reply)), ps[j]? = some (h, p) → Loader _ p) (before after : List Nat) (hnot : i ∉ before)
    (hin : Fenced b G (World.interleave before ps w).2.core)
    (hd : ideal (b.on (World.interleave before ps w).2.core) (Prog.exec c) ≠ .ok (.error .diverge)) (rs : List Reply)
    (hr : World.result (World.interleave (before ++ i :: after) ps w) i = some rs) :
    ∃ r, rs = [r] ∧ ideal (b.on (World.interleave before ps w).2.core) (Prog.exec c) = .ok r := by
  obtain ⟨Γ1, -, hk1, hs1⟩ := World.interleave_own (h := h) (b := b) (P := fun _ p Γ C => Guarded b p Γ C)
    (fun _ _ _ _ _ _ h1 h2 h3 => h1.mono h2 h3) (fun _ _ _ _ h1 h2 => h1.next h2) before ps w (fun a => if a < b.heap.length then some a else none)
    (fun j p hj => (hown j p hj).guarded _ _ _) (by rw [hat]; exact knownB_start hb _)
  have hi1 := World.interleave_idle before ps w hnot
  rw [World.interleave_append] at hr
  generalize World.interleave before ps w = x at hk1 hs1 hi1 hin hd hr ⊢
  obtain ⟨qs, w1⟩ := x
  simp only at hk1 hs1 hi1 hin hd hr ⊢
  rw [hi] at hi1
  have hlt : i < qs.length := (List.getElem?_eq_some_iff.mp hi1).1
  rw [World.interleave, hi1] at hr
  simp only at hr
  rcases thenB_exec hin hc hd with ⟨k, hk, hok⟩ | ⟨r, hp, hid⟩
  · have hst : ∀ Γ, Started b w1.core (fun r => ∃ r', r = .ok [r'] ∧ ideal (b.on w1.core) (Prog.exec c) = .ok r')
        (Prog.bind (k (.ok w1.core.length)) fun r => Pure.pure [r]) Γ w1.core := by
      intro Γ
      refine ⟨List.prefix_refl _, fun _ => none, fun _ _ h => (by cases h), ?_⟩
      refine OkB.bind (hok _) (fun Γ' a _ hr => ?_) (fun Γ' e _ hr => ?_)
      · intro Γ'' _
        refine ⟨a, rfl, ?_⟩
        revert hr
        cases ideal (b.on w1.core) (Prog.exec c) with
        | ok b => intro hr; exact congrArg Except.ok (Eq.symm hr)
        | error e => exact fun hr => hr.elim
      · exfalso
        have hrep := replies_exec c
        revert hr
        cases hid : ideal (b.on w1.core) (Prog.exec c) with
        | ok b => exact fun hr => hr.elim
        | error e =>
          intro _
          have : ∀ p : Prog Reply, Replies p → ideal (b.on w1.core) p ≠ .error e := by
            intro p
            induction p with
            | pure a => intro _ h; cases h
            | throw e => intro h; exact h.elim
            | step x k ih => intro h; exact ih _ (h _)
          exact this _ hrep hid
    have hnx : World.next h (Prog.history [c]) w1 =
        (Prog.bind (k (.ok w1.core.length)) (fun r => Pure.pure [r]), w1.set h (w1.at h)) := by
      rw [history_one, hk]
      rfl
    rw [hnx] at hr
    simp only at hr
    have hset : w1.set h (w1.at h) = w1 := by
      simp only [World.set, World.at]
      congr 1
      funext j
      split
      · rename_i hj; rw [hj]
      · rfl
    rw [hset] at hr
    obtain ⟨Γ2, -, -, hs2⟩ := World.interleave_own (b := b) (h := h)
      (P := fun j p Γ C => if j = i then
        Started b w1.core (fun r => ∃ r', r = .ok [r'] ∧ ideal (b.on w1.core) (Prog.exec c) = .ok r') p Γ C
        else Guarded b p Γ C)
      (by
        intro j p Γ Γ' C C' h1 h2 h3
        split at h1
        · rename_i hj; rw [if_pos hj]; exact h1.mono h2 h3
        · rename_i hj; rw [if_neg hj]; exact h1.mono h2 h3)
      (by
        intro j p Γ s h1 h2
        split at h1
        · rename_i hj; simp only [if_pos hj]; exact h1.next h2
        · rename_i hj; simp only [if_neg hj]; exact h1.next h2)
      after (qs.set i (h, Prog.bind (k (.ok w1.core.length)) fun r => Pure.pure [r])) w1 Γ1 (by
        intro j p hj
        rw [List.getElem?_set] at hj
        split at hj
        · rename_i hij
          subst hij
          cases hj
          rw [if_pos rfl]
          exact hst Γ1
        · rename_i hij
          rw [if_neg (Ne.symm hij)]
          exact hs1 j p hj) hk1
    have hh := World.interleave_handle after (qs.set i (h, Prog.bind (k (.ok w1.core.length)) fun r => Pure.pure [r])) w1 i
    rw [List.getElem?_set_self hlt] at hh
    unfold World.result at hr
    cases hx : (World.interleave after (qs.set i (h, Prog.bind (k (.ok w1.core.length)) fun r => Pure.pure [r])) w1).1[i]? with
    | none => rw [hx] at hr; cases hr
    | some y =>
      obtain ⟨h', p⟩ := y
      rw [hx] at hh hr
      simp only [Option.map_some, Option.some.injEq] at hh
      subst hh
      have := hs2 i p hx
      rw [if_pos rfl] at this
      simp only [Option.bind_some] at hr
      cases p with
      | pure a =>
        cases hr
        obtain ⟨r', h1, h2⟩ := this.pure
        cases h1
        exact ⟨r', rfl, h2⟩
      | throw e => cases hr
      | step x k => cases hr
  · refine ⟨r, ?_, hid⟩
    have hx := World.interleave_done (i := i) (h := h) (a := [r]) after
      (qs.set i (h, (World.next h (Prog.history [c]) w1).1)) (World.next h (Prog.history [c]) w1).2 (by
        rw [List.getElem?_set_self hlt, history_one, hp]
        rfl)
    unfold World.result at hr
    rw [hx] at hr
    cases hr
    rfl

/-! ## Cores of sequential histories -/

/-- The header has no nodes. -/
theorem Reachable.node_pos {s : St} (hs : Reachable s) {r : Child} {n : Node} (hn : nodeAt s.core r = some n) :
    0 < r.seq := by
  obtain ⟨m, ls, l, w1, w2, w3, w4⟩ := nodeAt_wire hn
  have hlt := nodeAt_lt hn
  rcases Nat.eq_zero_or_pos r.seq with h0 | h0
  · exfalso
    obtain ⟨s', hs', hc'⟩ := hs.take 1
    obtain ⟨cs, rfl⟩ := hs'
    obtain ⟨m0, hm⟩ := header_of_len cs (by rw [hc', List.length_take]; omega)
    have hw := wireBlock_header m0
    rw [← hm, hc'] at hw
    rw [h0] at w1
    unfold wireBlock at hw w1
    rw [List.getElem?_take_of_lt (by omega)] at hw
    rw [hw] at w1
    cases w1
  · exact h0

theorem inward_reachable {s : St} (hs : Reachable s) : Inward s.core := by
  intro r n hn
  have h0 := hs.node_pos hn
  obtain ⟨m, ls, l, w1, w2, w3, w4⟩ := nodeAt_wire hn
  have hlt := nodeAt_lt hn
  · obtain ⟨m', ls', g1, g2, g3⟩ := hs.sound h0 hlt
    rw [w1] at g1
    cases g1
    constructor
    · intro q hq
      have := g3.keys l (List.mem_of_getElem? w2) q (by rw [w3]; exact hq)
      omega
    · intro c hc
      obtain ⟨refs, e1, e2⟩ := g3.children _ l w2
      obtain ⟨j, hj⟩ := List.getElem?_of_mem hc
      obtain ⟨p1, p2⟩ := get_pairs n.children j c hj
      rw [← w4, e1] at p1 p2
      have hget : ∀ (refs : List (Nat × Nat)) (j p o : Nat), (refs.flatMap fun r => [r.1, r.2])[2 * j]? = some p →
          (refs.flatMap fun r => [r.1, r.2])[2 * j + 1]? = some o → (p, o) ∈ refs := by
        intro refs
        induction refs with
        | nil => intro j p o h; simp at h
        | cons c cs ih =>
          intro j p o ha hb
          cases j with
          | zero => simp at ha hb; subst ha; subst hb; simp
          | succ j =>
            rw [show 2 * (j + 1) = 2 * j + 2 by omega] at ha hb
            rw [show 2 * j + 2 + 1 = 2 * j + 1 + 2 by omega] at hb
            exact List.mem_cons_of_mem _ (ih j p o (by simpa using ha) (by simpa using hb))
      have := e2 _ (hget refs j _ _ p1 p2)
      simp only at this
      omega

/-- A handle that shows the database of its core shows that of any core some history leads to and that
continues its own. -/
theorem Holds.catch_up {s : St} {d : Db} (h : Holds s d) : ∀ cs, s.core <+: (runSt cs St.init).core →
    ∃ d', Holds (s.on (runSt cs St.init).core) d' := by
  have hio := h.io
  have hon : ∀ c, s.on c = { s with core := c } := by
    intro c
    obtain ⟨_, _, _, _⟩ := s
    simp only at hio
    simp only [St.on, hio]
  by_cases hlen : s.core.length ≤ 1
  · intro cs hp
    have hs : Reachable (runSt cs St.init) := ⟨cs, rfl⟩
    obtain ⟨d', hd⟩ := hs.holds
    have hwf : SWF { s with core := (runSt cs St.init).core } := by
      obtain ⟨ext, hx⟩ := hp
      have := h.wf.append ext
      rwa [hx] at this
    rw [hon]
    refine ⟨d', hwf, h.ok, hd.ver, ?_⟩
    rcases hd.store with hb | ⟨H, t, ht, _, hcon⟩
    · exact .inl hb
    · refine .inr ⟨H, t, ht, ?_, hcon⟩
      intro r hr a ha
      exfalso
      obtain ⟨n, hn⟩ := ht.rep.refs_some r hr
      have hpos := hs.node_pos hn
      have ha : (s.cache r.seq).bind (fun e => e.nodes[r.offset]?) = some a := ha
      cases hc : s.cache r.seq with
      | none => rw [hc] at ha; cases ha
      | some e =>
        obtain ⟨b, hb, _⟩ := h.wf.ent _ _ hc
        have := blockAt_lt hb
        omega
  · intro cs
    induction cs using snocInd with
    | nil =>
      intro hp
      have := hp.length_le
      simp only [runSt, run, St.init, St.open, List.length_nil] at this
      omega
    | snoc cs c ih =>
      intro hp
      have hself : s.core = (runSt (cs ++ [c]) St.init).core → ∃ d', Holds (s.on (runSt (cs ++ [c]) St.init).core) d' := by
        intro he
        rw [← he, hon]
        exact ⟨d, h⟩
      have hback : s.core <+: (runSt cs St.init).core → ∃ d', Holds (s.on (runSt (cs ++ [c]) St.init).core) d' := by
        intro hb
        obtain ⟨d', hd⟩ := ih hb
        have := hd.follow (run_holds cs) rfl c
        rw [runSt_snoc]
        exact ⟨_, this⟩
      have hp' := hp
      rw [runSt_snoc] at hp'
      rcases (exec_step (run_holds cs) c).core_cases with ⟨e, _⟩ | ⟨_, ⟨m, e⟩, _⟩ | ⟨b, e, _, _⟩ | ⟨_, b, e, _⟩
      · rw [e] at hp'
        exact hback hp'
      · rw [e] at hp'
        have := hp'.length_le
        simp at this
        omega
      · rw [e, List.prefix_concat_iff] at hp'
        rcases hp' with hp' | hp'
        · exact hself (by rw [runSt_snoc, e]; exact hp')
        · exact hback hp'
      · rw [e] at hp'
        refine hself ?_
        rw [runSt_snoc, e]
        exact hp'.eq_of_length_le (by simp; omega)

/-- The names of the nodes of a tree. -/
def NamesOf (b : St) (F : List Bytes) (t : T) (i : Nat) : Prop :=
  ∃ r ∈ t.refs, ∃ e, idealEntry (b.on F) r.seq = .ok e ∧ e.nodes[r.offset]? = some i

theorem named_node {b : St} {F : List Bytes} {t : T} (hw : SWF (b.on F)) (hr : Rep (nodeAt F) t)
    (hc : Coh (b.on F) (· ∈ t.refs)) {i : Nat} {r : Child} (hm : r ∈ t.refs) {e : BlockEntry}
    (he : idealEntry (b.on F) r.seq = .ok e) (hi : e.nodes[r.offset]? = some i) :
    idealNode (b.on F) i = nodeAt F r := by
  cases hcc : b.cache r.seq with
  | some e0 =>
    rw [idealEntry_eq, hcc] at he
    cases he
    have haddr : addrOf (b.on F) r = some i := by
      show (b.cache r.seq).bind _ = _
      rw [hcc]; exact hi
    have hlt : i < b.heap.length := hw.lt r i haddr
    rw [idealNode_eq, if_pos hlt]
    exact hc r hm i haddr
  | none =>
    obtain ⟨n, hn⟩ := hr.refs_some r hm
    cases hb : blockAt F r.seq with
    | none => simp [nodeAt, hb] at hn
    | some bk =>
      rw [idealEntry_load hcc hb] at he
      cases he
      simp only [List.getElem?_map, Option.map_eq_some_iff] at hi
      obtain ⟨j, hj, rfl⟩ := hi
      have hj : j = r.offset := by
        rw [List.getElem?_range] at hj
        · exact (Option.some.inj hj).symm
        · have := (List.getElem?_eq_some_iff.mp hj).1
          simpa using this
      subst hj
      rw [idealNode_eq, if_neg (by omega), Nat.add_sub_cancel_left, Nat.unpair_pair]

theorem Holds.fenced {b : St} {F : List Bytes} {d : Db} (h : Holds (b.on F) d) : ∃ G, Fenced b G F := by
  rcases h.store with hb | ⟨H, t, ht, hc, _⟩
  · refine ⟨fun _ => False, fun h => h.elim, fun h => h.elim, fun h => h.elim, fun hlt => ?_⟩
    have : F.length ≤ 1 := hb.1
    omega
  · have ht : TreeAt F H t := ht
    have hnode : ∀ {i : Nat}, NamesOf b F t i → ∃ r ∈ t.refs, idealNode (b.on F) i = nodeAt F r := by
      rintro i ⟨r, hm, e, he, hi⟩
      exact ⟨r, hm, named_node h.wf ht.rep hc hm he hi⟩
    refine ⟨NamesOf b F t, ?_, ?_, ?_, ?_⟩
    · intro i hi
      obtain ⟨r, hm, e⟩ := hnode hi
      rw [e]
      exact ht.rep.refs_some r hm
    · intro i n hi hn q hq
      obtain ⟨r, hm, e⟩ := hnode hi
      rw [e] at hn
      obtain ⟨bk, hbk⟩ := ht.dfd q (keys_flat ht.rep hm hn hq)
      exact blockAt_lt hbk
    · intro i n hi hn c hcm
      obtain ⟨r, hm, e⟩ := hnode hi
      rw [e] at hn
      have := ht.rep.refs_down r hm hn c hcm
      exact ⟨ht.rep.seq_lt c this, fun e' i' h1 h2 => ⟨c, this, e', h1, h2⟩⟩
    · intro hlt e i' h1 h2
      refine ⟨t.ref, T.ref_mem_refs t, e, ?_, ?_⟩ <;> rw [ht.ref]
      · exact h1
      · exact h2

/-- With everything in memory a reading call replies what it replies on the handle. -/
theorem ideal_exec_at {s : St} (hs : Rooms s) {c : Cmd} (hc : c.looks = true) :
    ideal s (Prog.exec c) = .ok (exec c s).1 := by
  obtain ⟨Γ, _, _, h⟩ := (sim_exec (s0 := s) (esc := false) hc).run (inv_start hs)
  rw [run_exec _ (by intro he; rw [he] at hc; cases hc)] at h
  revert h
  cases ideal s (Prog.exec c) with
  | error e => exact fun h => h.elim
  | ok a => exact fun h => congrArg Except.ok (Eq.symm h)

theorem rooms_open (c : List Bytes) : Rooms (St.open c) := fun _ _ h => by cases h

theorem ideal_exec (core : List Bytes) {c : Cmd} (hc : c.looks = true) :
    ideal (St.open core) (Prog.exec c) = .ok (exec c (St.open core)).1 := ideal_exec_at (rooms_open core) hc

/-! ## A writer among readers -/

/-- Sequencing: the first program is still running, or has returned on the way. -/
theorem after_bind {p : Prog α} (hp : Replies p) (f : α → Prog β) : ∀ (n : Nat) (s : St),
    ((Prog.after n p s).1.ended = false ∧ Prog.after n (p >>= f) s = ((Prog.after n p s).1 >>= f, (Prog.after n p s).2)) ∨
    ∃ m a, m ≤ n ∧ (Prog.after m p s).1 = .pure a ∧ Prog.after n (p >>= f) s = Prog.after (n - m) (f a) (Prog.after m p s).2 := by
  intro n
  induction n generalizing p with
  | zero =>
    intro s
    cases p with
    | pure a => exact .inr ⟨0, a, Nat.le_refl _, rfl, rfl⟩
    | throw e => exact hp.elim
    | step x k => exact .inl ⟨rfl, rfl⟩
  | succ n ih =>
    intro s
    cases p with
    | pure a => exact .inr ⟨0, a, Nat.zero_le _, rfl, rfl⟩
    | throw e => exact hp.elim
    | step x k =>
      rcases ih (p := k (x.run s).1) (hp _) (x.run s).2 with ⟨h1, h2⟩ | ⟨m, a, h1, h2, h3⟩
      · exact .inl ⟨h1, h2⟩
      · refine .inr ⟨m + 1, a, by omega, h2, ?_⟩
        rw [show n + 1 - (m + 1) = n - m by omega]
        exact h3

theorem Replies.bind {p : Prog α} {f : α → Prog β} (h : Replies p) (hf : ∀ a, Replies (f a)) : Replies (p >>= f) := by
  show Replies (Prog.bind p f)
  induction p with
  | pure a => exact hf a
  | throw e => exact h.elim
  | step x k ih => exact fun r => ih _ (h r)

theorem replies_history (cs : List Cmd) : Replies (Prog.history cs) := by
  induction cs with
  | nil => trivial
  | cons c cs ih => exact (replies_exec c).bind fun r => ih.bind fun rs => trivial

/-- While a history is under way the core is one of those between its calls, or only has the header
more. -/
theorem history_core : ∀ (ws : List Cmd) {s : St} {d : Db}, Holds s d → (∀ c ∈ ws, c ≠ .reopen) → ∀ n,
    ∃ j, j ≤ ws.length ∧ ((Prog.after n (Prog.history ws) s).2.core = (runSt (ws.take j) s).core ∨
      (runSt (ws.take j) s).core = [] ∧ (Prog.after n (Prog.history ws) s).2.core = [headerBlock]) := by
  intro ws
  induction ws with
  | nil =>
    intro s d _ _ n
    refine ⟨0, Nat.le_refl _, .inl ?_⟩
    rw [show Prog.history [] = Prog.pure [] from rfl, after_ended rfl]
    rfl
  | cons c cs ih =>
    intro s d hd hw n
    rcases after_bind (replies_exec c) (fun r => Prog.history cs >>= fun rs => Pure.pure (r :: rs)) n s with
      ⟨h1, h2⟩ | ⟨m, r, h1, h2, h3⟩
    · refine ⟨0, Nat.zero_le _, ?_⟩
      rw [show Prog.history (c :: cs) = Prog.exec c >>= fun r => Prog.history cs >>= fun rs => Pure.pure (r :: rs) from rfl, h2]
      rcases after_exec hd.wf.rooms hd.ok c n h1 with e | ⟨e1, _, e2⟩
      · exact .inl e
      · exact .inr ⟨e1, e2⟩
    · have hrun := run_after m (Prog.exec c) s
      rw [run_exec c (hw c (by simp)), h2] at hrun
      have hst : (Prog.after m (Prog.exec c) s).2 = (exec c s).2 := congrArg Prod.snd hrun
      have hcore : ∃ k, (Prog.after n (Prog.history (c :: cs)) s).2.core = (Prog.after k (Prog.history cs) (exec c s).2).2.core := by
        rw [show Prog.history (c :: cs) = Prog.exec c >>= fun r => Prog.history cs >>= fun rs => Pure.pure (r :: rs) from rfl, h3, hst]
        rcases after_bind (replies_history cs) (fun rs => Pure.pure (r :: rs)) (n - m) (exec c s).2 with
          ⟨g1, g2⟩ | ⟨k, a, g1, g2, g3⟩
        · exact ⟨n - m, by rw [g2]⟩
        · refine ⟨k, ?_⟩
          rw [g3, show (Pure.pure (r :: a) : Prog (List Reply)) = Prog.pure (r :: a) from rfl, after_ended rfl]
      obtain ⟨k, hk⟩ := hcore
      obtain ⟨j, hj, hjc⟩ := ih (exec_refines hd c).2 (fun c' hc' => hw c' (by simp [hc'])) k
      refine ⟨j + 1, by simp; omega, ?_⟩
      rw [hk]
      exact hjc

/-- Programs that never append. -/
theorem noApp_exec {c : Cmd} (hc : c.looks = true) : NoApp _ (Prog.exec c) := by
  cases c with
  | version => exact NoApp.replyOf _ noApp_acts.version
  | get k => exact NoApp.replyOf _ (noApp_get k)
  | traverse b rs => exact NoApp.replyOf _ (noApp_traverseSession b rs)
  | _ => cases hc

/-- A program on a handle of its own, all others being readers, runs as if alone. -/
theorem World.interleave_writer {hw : Nat} {iw : Nat} : ∀ (sched : List Nat) (ps : List (Nat × Prog α)) (w : World)
    (p : Prog α), ps[iw]? = some (hw, p) → (∀ (j h : Nat) (q : Prog α), j ≠ iw → ps[j]? = some (h, q) → h ≠ hw ∧ NoApp _ q) →
    ∃ n, (World.interleave sched ps w).2.at hw = (Prog.after n p (w.at hw)).2 := by
  intro sched
  induction sched with
  | nil => intro ps w p _ _; exact ⟨0, rfl⟩
  | cons i is ih =>
    intro ps w p hp hq
    unfold World.interleave
    split
    · exact ih ps w p hp hq
    · rename_i h q hi
      have hlt : i < ps.length := (List.getElem?_eq_some_iff.mp hi).1
      by_cases hii : i = iw
      · subst hii
        rw [hp] at hi
        cases hi
        have hio : (p.next (w.at hw)).2.io = Io.good := by
          cases p with
          | pure a => rfl
          | throw e => rfl
          | step x k => exact (x.grows (w.at hw)).2
        obtain ⟨n, hn⟩ := ih (ps.set i (hw, (World.next hw p w).1)) (World.next hw p w).2 (World.next hw p w).1
          (by rw [List.getElem?_set_self hlt]) (by
            intro j h q hj hq'
            rw [List.getElem?_set_ne (Ne.symm hj)] at hq'
            exact hq j h q hj hq')
        refine ⟨n + 1, ?_⟩
        rw [hn, show (World.next hw p w).2.at hw = (p.next (w.at hw)).2 from w.set_at hw hio]
        rfl
      · obtain ⟨h1, h2⟩ := hq i h q hii hi
        have hnext : (q.next (w.at h)).2.core = w.core ∧ NoApp _ (q.next (w.at h)).1 := by
          cases q with
          | pure a => exact ⟨rfl, trivial⟩
          | throw e => exact ⟨rfl, trivial⟩
          | step x k => exact ⟨(Atom.core_noApp h2.1 (w.at h)).1, h2.2 _⟩
        have hat : (World.next h q w).2.at hw = w.at hw := by
          rw [show (World.next h q w).2.at hw = { w.at hw with core := (q.next (w.at h)).2.core } from
            w.set_other _ (Ne.symm h1), hnext.1]
          rfl
        obtain ⟨n, hn⟩ := ih (ps.set i (h, (World.next h q w).1)) (World.next h q w).2 p (by
            rw [List.getElem?_set_ne hii]; exact hp) (by
            intro j h' q' hj hq'
            rw [List.getElem?_set] at hq'
            split at hq'
            · rename_i hij
              subst hij
              cases hq'
              exact ⟨h1, hnext.2⟩
            · exact hq j h' q' hj hq')
        exact ⟨n, by rw [hn, hat]⟩

end Hyperbee
