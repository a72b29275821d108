import Verif.Proof.Paging
import Verif.Proof.Lengths
import Verif.Props.Pace
/-!
# Reading page by page comes to an end
-/

namespace Hyperbee

theorem runSt_longer (cs : List Cmd) : ∀ s : St, s.core.length ≤ (runSt cs s).core.length := by
  induction cs with
  | nil => intro s; exact Nat.le_refl _
  | cons c cs ih => intro s; exact Nat.le_trans (version_monotone c s) (ih _)

/-- A page that was polled often enough yields something or is the last. -/
theorem page_live {s : St} (hs : Reachable s) {d : Db} (hd : Holds s d) (h2 : 2 ≤ d.version) (b : TraverseConfigBuilder)
    {sched : List Bool} (hpoll : 8 * (Nat.log 5 d.version + 1) ≤ sched.count true) :
    (exec (.traverse b sched) s).1.lastPage ∨ (exec (.traverse b sched) s).1.entries ≠ [] := by
  cases hb : b.build with
  | error e =>
    have : e = .traverseConfigBuilder := by
      unfold TraverseConfigBuilder.build at hb
      split at hb <;> cases hb
      rfl
    subst this
    left
    show (replyOf (traverseSession b sched) _ s).1.lastPage
    unfold replyOf traverseSession
    rw [hb]
    exact trivial
  | ok conf =>
    rcases hd.store with hbare | ⟨H, u, hu, hco, _⟩
    · have := hbare.1
      have := hd.ver
      omega
    · obtain ⟨xs, rest, fin, s', h1, _, _, _⟩ := collect_run hu hd.wf hco (build_sound hb) sched
      have hex : (exec (.traverse b sched) s).1 = .items (xs.map fun q => .ok (kvOf s.core q)) fin.isNone := by
        show (replyOf (traverseSession b sched) _ s).1 = _
        unfold replyOf traverseSession
        rw [hb]
        dsimp only
        rw [bind_ok h1]
        rfl
      rw [hex]
      cases fin with
      | none => exact .inl rfl
      | some fs =>
        right
        obtain ⟨fs0, s0, h0, e0, hp⟩ := traverse_pace hu hd.wf hco conf
        unfold collect at h1
        rw [bind_ok h0] at h1
        obtain ⟨φ, _, hp1, _, hle⟩ := drive_pace (fun _ _ => rfl) sched e0.wf hp (Nat.le_refl _) _ fs s' h1
        have hpos := hp1.pos
        cases xs with
        | cons q xs => intro h; cases h
        | nil =>
          exfalso
          simp only [List.map_nil, List.length_nil, Nat.mul_zero, Nat.add_zero] at hle
          have hlog : H ≤ Nat.log 5 d.version := by
            obtain ⟨h, hh, hl⟩ := levels_few hs
            have := hs.levels hu hh
            rw [hd.ver]
            omega
          omega

theorem paging_cons (b : TraverseConfigBuilder) (cs : List Cmd) (sched : List Bool) (ps : List (List Cmd × List Bool)) (s : St) :
    ∃ b', paging b ((cs, sched) :: ps) s = (exec (.traverse b sched) (runSt cs s)).1 ::
      paging b' ps (exec (.traverse b sched) (runSt cs s)).2 :=
  ⟨_, rfl⟩

theorem paging_length : ∀ (ps : List (List Cmd × List Bool)) (b : TraverseConfigBuilder) (s : St), (paging b ps s).length = ps.length := by
  intro ps
  induction ps with
  | nil => intro b s; rfl
  | cons p ps ih =>
    intro b s
    obtain ⟨cs, sched⟩ := p
    obtain ⟨b', h⟩ := paging_cons b cs sched ps s
    rw [h, List.length_cons, List.length_cons, ih]

theorem views_length : ∀ (ps : List (List Cmd × List Bool)) (d : Db), (views d ps).length = ps.length := by
  intro ps
  induction ps with
  | nil => intro d; rfl
  | cons p ps ih => intro d; exact congrArg (· + 1) (ih _)

/-- Either some page is the last, or each yields something. -/
theorem paging_live : ∀ (ps : List (List Cmd × List Bool)) (b : TraverseConfigBuilder) {s : St} {d : Db}, Reachable s → Holds s d →
    2 ≤ d.version →
    (∀ (i : Nat) (p : List Cmd × List Bool) (v : Db), ps[i]? = some p → (views d ps)[i]? = some v → 8 * (Nat.log 5 v.version + 1) ≤ p.2.count true) →
    (∃ r ∈ paging b ps s, r.lastPage) ∨ ps.length ≤ ((paging b ps s).flatMap Reply.entries).length := by
  intro ps
  induction ps with
  | nil => intro b s d _ _ _ _; exact .inr (Nat.zero_le _)
  | cons p ps ih =>
    intro b s d hs hd h2 hpoll
    obtain ⟨cs, sched⟩ := p
    obtain ⟨b', h⟩ := paging_cons b cs sched ps s
    have hd1 := (run_refines cs hd).2
    have hv : 2 ≤ (d.after cs).version := by
      rw [hd1.ver]
      have := runSt_longer cs s
      have := hd.ver
      omega
    have hl := page_live (hs.runSt cs) hd1 hv b (hpoll 0 (cs, sched) (d.after cs) rfl rfl)
    rw [h]
    rcases hl with hl | hl
    · exact .inl ⟨_, List.mem_cons_self, hl⟩
    · rcases ih b' ((hs.runSt cs).runSt [.traverse b sched]) (exec_refines hd1 (.traverse b sched)).2 hv
          (fun i p v hp hv => hpoll (i + 1) p v hp hv) with ⟨r, hr, hlast⟩ | hle
      · exact .inl ⟨r, List.mem_cons_of_mem _ hr, hlast⟩
      · right
        rw [List.flatMap_cons, List.length_append, List.length_cons]
        have := List.length_pos_iff.mpr hl
        exact Nat.le_trans (Nat.add_comm _ _ ▸ Nat.add_le_add this hle) (Nat.le_refl _)

end Hyperbee
