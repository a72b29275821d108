import Verif.SpecSubPaging
import Verif.Model.SubPaging
import Verif.Proof.Paging
import Verif.Proof.PageEnds
import Verif.Props.Prefixed
/-!
# Reading a sub-database page by page
-/

namespace Hyperbee

theorem prefix_le (p : Prefixed) (y : Bytes) : p.pre < p.pre ++ p.sep ++ y ∨ p.pre ++ p.sep ++ y = p.pre := by
  by_cases h : p.pre = p.pre ++ p.sep ++ y
  · exact .inr h.symm
  · exact .inl (blt_of_prefix ⟨p.sep ++ y, by simp⟩ h)

theorem nextPage_finite {b : TraverseConfigBuilder} (h : FiniteBounds b) (k : Bytes) : FiniteBounds (nextPage b k) := by
  intro x
  obtain ⟨h1, h2⟩ := h x
  unfold nextPage
  split
  · exact ⟨h1, by simp⟩
  · exact ⟨by simp, h2⟩

theorem nextPage_two {b : TraverseConfigBuilder} (h : TwoKeys b) (k : Bytes) : TwoKeys (nextPage b k) := by
  obtain ⟨lo, hi, h1, h2⟩ := h
  unfold nextPage
  split
  · exact ⟨lo, k, h1, rfl⟩
  · exact ⟨k, hi, rfl, h2⟩

theorem TwoKeys.finite {b : TraverseConfigBuilder} (h : TwoKeys b) : FiniteBounds b := by
  obtain ⟨lo, hi, h1, h2⟩ := h
  intro x
  rw [h1, h2]
  exact ⟨by simp, by simp⟩

theorem FiniteBounds.min {b : TraverseConfigBuilder} {conf : TraverseConfig} (h : FiniteBounds b) (hb : b.build = .ok conf) :
    conf.minValue = .infinite .negative ∨ ∃ lo, conf.minValue = .finite lo := by
  rw [(build_fields hb).1]
  cases hm : b.minValue with
  | none => exact .inl rfl
  | some m =>
    cases m with
    | infinite x => exact absurd hm (h x).1
    | finite lo => exact .inr ⟨lo, rfl⟩

theorem FiniteBounds.max {b : TraverseConfigBuilder} {conf : TraverseConfig} (h : FiniteBounds b) (hb : b.build = .ok conf) :
    conf.maxValue = .infinite .positive ∨ ∃ hi, conf.maxValue = .finite hi := by
  rw [(build_fields hb).2.2.1]
  cases hm : b.maxValue with
  | none => exact .inl rfl
  | some m =>
    cases m with
    | infinite x => exact absurd hm (h x).2
    | finite lo => exact .inr ⟨lo, rfl⟩

/-- The bounds enclose, of what is stored, exactly what belongs to the sub-database. -/
theorem page_bounds {d : Db} {p : Prefixed} {b : TraverseConfigBuilder} {conf : TraverseConfig} (hb : b.build = .ok conf)
    (hfin : FiniteBounds b) (h : TwoKeys b ∨ d.Clean p) :
    Uncrossed p conf ∧
    ∀ x, d.map x ≠ none → (InRange (p.boundedConf conf) x ↔ ∃ y, x = p.pre ++ p.sep ++ y ∧ InRange conf y) := by
  have hmin := hfin.min hb
  have hmax := hfin.max hb
  constructor
  · rcases h with ⟨lo, hi, h1, h2⟩ | ⟨h1, h2, _⟩
    · have e1 : conf.minValue = .finite lo := by rw [(build_fields hb).1, h1]; rfl
      have e2 : conf.maxValue = .finite hi := by rw [(build_fields hb).2.2.1, h2]; rfl
      exact ⟨fun _ i _ h => (by rw [e2] at h; cases h), fun i h => (by rw [e1] at h; cases h)⟩
    · exact ⟨fun _ _ _ _ _ => .inl h2, fun _ _ _ h => absurd h h1⟩
  · intro x hx
    rw [boundedConf_range]
    constructor
    · intro hp
      have hpre : ∃ y, x = p.pre ++ p.sep ++ y := by
        rcases h with ⟨lo, hi, h1, h2⟩ | ⟨_, _, h3⟩
        · have e1 : conf.minValue = .finite lo := by rw [(build_fields hb).1, h1]; rfl
          have e2 : conf.maxValue = .finite hi := by rw [(build_fields hb).2.2.1, h2]; rfl
          unfold Passes at hp
          rw [e1, e2] at hp
          obtain ⟨y, hy⟩ := between_prefix (p.pre ++ p.sep) (hp.1.imp id And.right) (hp.2.imp id And.right)
          exact ⟨y, hy.symm⟩
        · have hpx : p.pre <+: x := by
            have hlow : p.pre ++ [] < x ∨ x = p.pre ++ [] := by
              rw [List.append_nil]
              have := hp.1
              rcases hmin with e | ⟨lo, e⟩
              · rw [e] at this; exact this
              · rw [e] at this
                rcases this with h | ⟨_, rfl⟩
                · rcases prefix_le p lo with h' | h'
                  · exact .inl (blt_trans h' h)
                  · rw [h'] at h; exact .inl h
                · exact prefix_le p lo
            have := hp.2
            rcases hmax with e | ⟨hi, e⟩
            · rw [e] at this
              rcases this with rfl | h
              · exact List.prefix_rfl
              · exact h.1
            · rw [e] at this
              simp only [List.append_assoc] at this
              exact between_prefix p.pre hlow (this.imp id And.right)
          obtain ⟨y, hy⟩ := h3 x hx hpx
          exact ⟨y, hy.symm⟩
      obtain ⟨y, rfl⟩ := hpre
      refine ⟨y, rfl, ?_⟩
      unfold Passes at hp
      unfold InRange
      refine ⟨?_, ?_⟩
      · have := hp.1
        rcases hmin with e | ⟨lo, e⟩
        · rw [e]; exact trivial
        · rw [e] at this ⊢
          simp only [append_lt_iff, append_eq_iff] at this
          exact this
      · have := hp.2
        rcases hmax with e | ⟨hi, e⟩
        · rw [e]; exact trivial
        · rw [e] at this ⊢
          simp only [append_lt_iff, append_eq_iff] at this
          exact this
    · rintro ⟨y, rfl, hy⟩
      unfold Passes
      unfold InRange at hy
      refine ⟨?_, ?_⟩
      · have := hy.1
        rcases hmin with e | ⟨lo, e⟩
        · rw [e]; exact prefix_le p y
        · rw [e] at this ⊢
          simp only [append_lt_iff, append_eq_iff]
          exact this
      · have := hy.2
        rcases hmax with e | ⟨hi, e⟩
        · rw [e]
          rcases h with ⟨lo, hi, _, h2⟩ | ⟨_, h2, _⟩
          · rw [(build_fields hb).2.2.1, h2] at e; cases e
          · exact .inr ⟨⟨p.sep ++ y, by simp⟩, h2⟩
        · rw [e] at this ⊢
          simp only [append_lt_iff, append_eq_iff]
          exact this

/-- A page of the sub-database is one of the database it is by itself. -/
theorem sub_page_returns {s : St} {d : Db} (hd : Holds s d) {p : Prefixed} {b : TraverseConfigBuilder} (hfin : FiniteBounds b)
    (h : TwoKeys b ∨ d.Clean p) (sched : List Bool) :
    (d.sub p).Returns (.traverse b sched) (p.exec (.traverse b sched) s).1 := by
  simp only [Db.Returns]
  cases hb : b.build with
  | error e =>
    show (replyOf (p.traverseSession b sched) _ s).1 = _
    unfold replyOf Prefixed.traverseSession
    rw [hb]
    rfl
  | ok conf =>
    simp only []
    split
    · rename_i hv
      rcases hd.store with hbare | ⟨H, t, ht, _, _⟩
      · show (replyOf (p.traverseSession b sched) _ s).1 = _
        unfold replyOf Prefixed.traverseSession
        rw [hb]
        simp only []
        rw [bind_error (p.collect_bare hbare sched conf)]
      · have := ht.two
        have h1 : d.version ≤ 1 := hv
        rw [hd.ver] at h1
        omega
    · rename_i hv
      have h2 : 2 ≤ s.core.length := by
        have h1 : ¬ d.version ≤ 1 := hv
        rw [hd.ver] at h1
        omega
      obtain ⟨hu, hr⟩ := page_bounds hb hfin h
      obtain ⟨full, N, ⟨hl1, hl2⟩, hrep⟩ := sub_traversal hd h2 p hb (bounded_sound p hb hu) hr
      obtain ⟨xs, fin, e1, e2, e3, _⟩ := hrep sched
      refine ⟨full, xs, fin, ⟨hl1, fun e => ?_⟩, e1, ?_⟩
      · rw [hl2 e]
        have hg : (p.exec (.get e.key) s).1 = .got (d.map (p.pre ++ p.sep ++ e.key)) :=
          (exec_refines hd (.get (p.pre ++ p.sep ++ e.key))).1
        rw [hg, Db.entry_eq]
        refine and_congr_left fun _ => ?_
        show _ ↔ (d.map (p.pre ++ p.sep ++ e.key)).map _ = _
        cases hm : d.map (p.pre ++ p.sep ++ e.key) with
        | none => simp
        | some z =>
          simp only [Option.map_some, Option.some.injEq, Reply.got.injEq]
          constructor
          · intro h; rw [h]
          · intro h; rw [← h]
      · cases fin with
        | true => exact e3 rfl
        | false => exact e2

/-- The calls between pages, as they come to the database. -/
def expandPages (ps : List (List (Option Prefixed × Cmd) × List Bool)) : List (List Cmd × List Bool) :=
  ps.map fun q => (q.1.map expandVia, q.2)

theorem sub_paging_aux {p : Prefixed} {b : TraverseConfigBuilder} {conf : TraverseConfig} (hb : b.build = .ok conf) (hfin : FiniteBounds b) :
    ∀ (ps : List (List (Option Prefixed × Cmd) × List Bool)) {s : St} {d : Db} {b' : TraverseConfigBuilder} {o : Option Bytes},
    Holds s d → FiniteBounds b' → (TwoKeys b' ∨ ∀ v ∈ views d (expandPages ps), v.Clean p) → Pager b conf b' o →
    (∀ (i : Nat) (r : Reply) (v : Db), (pagingVia p b' ps s)[i]? = some r → (views d (expandPages ps))[i]? = some v →
      (r = .error .traverseConfigBuilder ∨ r = .error .noRoot ∧ v.version ≤ 1 ∨ ∃ (xs : List KeyValueData) (fin : Bool), r = .items (xs.map .ok) fin) ∧
      ∀ e ∈ r.entries, (v.sub p).entry e.key = some e ∧ InRange conf e.key) ∧
    ((pagingVia p b' ps s).flatMap Reply.entries).Pairwise (fun x y => Behind conf x.key y.key) ∧
    (∀ e ∈ (pagingVia p b' ps s).flatMap Reply.entries, ∀ l ∈ o, Behind conf l e.key) ∧
    (∀ (j : Nat) (r : Reply), (pagingVia p b' ps s)[j]? = some r → r.lastPage → ∀ k, InRange conf k → (∀ l ∈ o, Behind conf l k) →
      (∀ (i : Nat) (v : Db), i ≤ j → (views d (expandPages ps))[i]? = some v → v.map (p.pre ++ p.sep ++ k) ≠ none) →
      ∃ i r, i ≤ j ∧ (pagingVia p b' ps s)[i]? = some r ∧ ∃ e ∈ r.entries, e.key = k) := by
  intro ps
  induction ps with
  | nil =>
    intro s d b' o _ _ _ _
    exact ⟨fun i r v h => (by cases h), .nil, (by intro e he; cases he), fun j r h => (by cases h)⟩
  | cons q ps ih =>
    intro s d b' o hs hf' hcl hp
    obtain ⟨cs, sched⟩ := q
    have h1 := runVia_holds cs hs
    have hvw : views d (expandPages ((cs, sched) :: ps)) = d.after (cs.map expandVia) :: views (d.after (cs.map expandVia)) (expandPages ps) := rfl
    rw [hvw] at hcl ⊢
    have hret := sub_page_returns h1 (p := p) hf' (hcl.imp id fun h => h _ List.mem_cons_self) sched
    have h2 := (p.traverse_ext h1 b' sched).holds h1
    obtain ⟨o', q1, q2, q3, q4, q5, q6⟩ := page_cases hb hfin hp hret
    have hpg : pagingVia p b' ((cs, sched) :: ps) s = (p.exec (.traverse b' sched) (runVia cs s).2).1 ::
      pagingVia p (match (p.exec (.traverse b' sched) (runVia cs s).2).1.entries.getLast? with | some e => nextPage b' e.key | none => b')
        ps (p.exec (.traverse b' sched) (runVia cs s).2).2 := rfl
    rw [hpg]
    generalize (p.exec (.traverse b' sched) (runVia cs s).2).1 = r0 at *
    have hf'' : FiniteBounds (match r0.entries.getLast? with | some e => nextPage b' e.key | none => b') := by
      split
      · exact nextPage_finite hf' _
      · exact hf'
    have hcl' : TwoKeys (match r0.entries.getLast? with | some e => nextPage b' e.key | none => b') ∨
        ∀ v ∈ views (d.after (cs.map expandVia)) (expandPages ps), v.Clean p := by
      refine hcl.imp (fun h => ?_) fun h v hv => h v (List.mem_cons_of_mem _ hv)
      split
      · exact nextPage_two h _
      · exact h
    obtain ⟨i1, i2, i3, i4⟩ := ih h2 hf'' hcl' q1
    generalize pagingVia _ _ ps _ = rs at *
    generalize views _ (expandPages ps) = vs at *
    refine ⟨?_, ?_, ?_, ?_⟩
    · intro i r v hr hv
      cases i with
      | zero =>
        cases hr; cases hv
        exact ⟨q2, fun e he => ⟨(q3 e he).1, (q3 e he).2.1⟩⟩
      | succ i => exact i1 i r v hr hv
    · rw [List.flatMap_cons, List.pairwise_append]
      exact ⟨q4, i2, fun x hx y hy => (q5 y.key (i3 y hy)).1 x hx⟩
    · intro e he l hl
      rw [List.flatMap_cons] at he
      rcases List.mem_append.mp he with he | he
      · exact (q3 e he).2.2 l hl
      · exact (q5 e.key (i3 e he)).2 l hl
    · intro j r hr hlast k hk ho hpres
      have hd : (d.after (cs.map expandVia)).map (p.pre ++ p.sep ++ k) ≠ none := hpres 0 _ (Nat.zero_le _) rfl
      have hv2 : 2 ≤ (d.after (cs.map expandVia)).version := by
        rcases h1.store with hbare | ⟨H, t, ht, _, _⟩
        · exact absurd (hbare.2 _) hd
        · rw [h1.ver]; exact ht.two
      rcases q6 hv2 k hk ho hd with h | ⟨h3, h4⟩
      · exact ⟨0, r0, Nat.zero_le _, rfl, h⟩
      · cases j with
        | zero => cases hr; exact absurd hlast h3
        | succ j =>
          obtain ⟨i, r', g1, g2, g3⟩ := i4 j r hr hlast k hk h4 fun i v hi hv => hpres (i + 1) v (by omega) hv
          exact ⟨i + 1, r', by omega, g2, g3⟩

theorem Mixed.runVia {s : St} (hs : Mixed s) : ∀ xs : List (Option Prefixed × Cmd), Mixed (Hyperbee.runVia xs s).2 := by
  intro xs
  induction xs generalizing s with
  | nil => exact hs
  | cons x xs ih => exact ih (hs.next x)

/-- A page of a sub-database that was polled often enough yields something or is the last. -/
theorem sub_page_live {s : St} (hs : Mixed s) {d : Db} (hd : Holds s d) (h2 : 2 ≤ d.version) {p : Prefixed} {b : TraverseConfigBuilder}
    (hfin : FiniteBounds b) (hcl : TwoKeys b ∨ d.Clean p) {sched : List Bool} (hpoll : 8 * (Nat.log 5 d.version + 1) ≤ sched.count true) :
    (p.exec (.traverse b sched) s).1.lastPage ∨ (p.exec (.traverse b sched) s).1.entries ≠ [] := by
  cases hb : b.build with
  | error e =>
    have : e = .traverseConfigBuilder := by
      unfold TraverseConfigBuilder.build at hb
      split at hb <;> cases hb
      rfl
    subst this
    left
    show (replyOf (p.traverseSession b sched) _ s).1.lastPage
    unfold replyOf Prefixed.traverseSession
    rw [hb]
    exact trivial
  | ok conf =>
    rcases hd.store with hbare | ⟨H, u, hu, hco, _⟩
    · have := hbare.1
      have := hd.ver
      omega
    · obtain ⟨hu', hr⟩ := page_bounds hb hfin hcl
      obtain ⟨full, N, _, hrep⟩ := sub_traversal hd (by rw [← hd.ver]; exact h2) p hb (bounded_sound p hb hu') hr
      obtain ⟨xs, fin, e1, _, _, _⟩ := hrep sched
      rw [e1]
      cases fin with
      | true => exact .inl rfl
      | false =>
        right
        cases xs with
        | cons q xs => intro h; cases h
        | nil =>
          exfalso
          obtain ⟨fs0, s0, h0, e0, hp⟩ := traverse_pace hu hd.wf hco (p.boundedConf conf)
          have hcol : p.collect sched conf s = drive p.strip sched fs0 s0 := by
            unfold Prefixed.collect
            rw [bind_ok h0]
          change (replyOf (p.traverseSession b sched) _ s).1 = _ at e1
          unfold replyOf Prefixed.traverseSession at e1
          rw [hb] at e1
          simp only [] at e1
          cases hx : p.collect sched conf s with
          | mk r s' =>
            cases r with
            | error e => rw [bind_error hx] at e1; cases e1
            | ok a =>
              obtain ⟨ys, f⟩ := a
              rw [bind_ok hx] at e1
              simp only [pure, M.pure] at e1
              injection e1 with g1 g2
              cases f with
              | none => cases g2
              | some fs =>
                obtain ⟨φ, _, hp1, _, hle⟩ := drive_pace (fun x t => strip_stays p x t) sched e0.wf hp (Nat.le_refl _) _ fs s'
                  (hcol.symm.trans hx)
                have hpos := hp1.pos
                rw [g1] at hle
                simp only [List.map_nil, List.length_nil, Nat.mul_zero, Nat.add_zero] at hle
                have hlog : H ≤ Nat.log 5 d.version := by
                  obtain ⟨xs, rfl⟩ := hs
                  have hcore := runVia_core xs init_holds init_holds rfl
                  have hR : Reachable (runSt (xs.map expandVia) St.init) := ⟨_, rfl⟩
                  obtain ⟨h, hh, hl⟩ := levels_few hR
                  have := hR.levels (hcore ▸ hu) hh
                  rw [hd.ver, hcore]
                  omega
                omega

theorem pagingVia_length (p : Prefixed) : ∀ (ps : List (List (Option Prefixed × Cmd) × List Bool)) (b : TraverseConfigBuilder) (s : St),
    (pagingVia p b ps s).length = ps.length := by
  intro ps
  induction ps with
  | nil => intro b s; rfl
  | cons q ps ih =>
    intro b s
    obtain ⟨cs, sched⟩ := q
    exact congrArg (· + 1) (ih _ _)

theorem runVia_longer (cs : List (Option Prefixed × Cmd)) {s : St} {d : Db} (hd : Holds s d) :
    d.version ≤ (d.after (cs.map expandVia)).version := by
  have h1 := (run_refines (cs.map expandVia) hd).2
  rw [h1.ver, hd.ver]
  exact runSt_longer _ _

/-- Either some page is the last, or each yields something. -/
theorem sub_paging_live {p : Prefixed} : ∀ (ps : List (List (Option Prefixed × Cmd) × List Bool)) (b : TraverseConfigBuilder) {s : St} {d : Db},
    Mixed s → Holds s d → FiniteBounds b → (TwoKeys b ∨ ∀ v ∈ views d (expandPages ps), v.Clean p) → 2 ≤ d.version →
    (∀ (i : Nat) (q : List (Option Prefixed × Cmd) × List Bool) (v : Db), ps[i]? = some q → (views d (expandPages ps))[i]? = some v →
      8 * (Nat.log 5 v.version + 1) ≤ q.2.count true) →
    (∃ r ∈ pagingVia p b ps s, r.lastPage) ∨ ps.length ≤ ((pagingVia p b ps s).flatMap Reply.entries).length := by
  intro ps
  induction ps with
  | nil => intro b s d _ _ _ _ _ _; exact .inr (Nat.zero_le _)
  | cons q ps ih =>
    intro b s d hs hd hf hcl h2 hpoll
    obtain ⟨cs, sched⟩ := q
    have hd1 := runVia_holds cs hd
    have hv : 2 ≤ (d.after (cs.map expandVia)).version := Nat.le_trans h2 (runVia_longer cs hd)
    have hvw : views d (expandPages ((cs, sched) :: ps)) = d.after (cs.map expandVia) :: views (d.after (cs.map expandVia)) (expandPages ps) := rfl
    rw [hvw] at hcl
    have hl := sub_page_live (hs.runVia cs) hd1 hv hf (hcl.imp id fun h => h _ List.mem_cons_self) (hpoll 0 (cs, sched) _ rfl rfl)
    have hpg : pagingVia p b ((cs, sched) :: ps) s = (p.exec (.traverse b sched) (runVia cs s).2).1 ::
      pagingVia p (match (p.exec (.traverse b sched) (runVia cs s).2).1.entries.getLast? with | some e => nextPage b e.key | none => b)
        ps (p.exec (.traverse b sched) (runVia cs s).2).2 := rfl
    rw [hpg]
    have hd2 := (p.traverse_ext hd1 b sched).holds hd1
    have hs2 : Mixed (p.exec (.traverse b sched) (runVia cs s).2).2 := (hs.runVia cs).next (some p, .traverse b sched)
    generalize (p.exec (.traverse b sched) (runVia cs s).2).1 = r0 at *
    rcases hl with hl | hl
    · exact .inl ⟨_, List.mem_cons_self, hl⟩
    · have hf' : FiniteBounds (match r0.entries.getLast? with | some e => nextPage b e.key | none => b) := by
        split
        · exact nextPage_finite hf _
        · exact hf
      have hcl' : TwoKeys (match r0.entries.getLast? with | some e => nextPage b e.key | none => b) ∨
          ∀ v ∈ views (d.after (cs.map expandVia)) (expandPages ps), v.Clean p := by
        refine hcl.imp (fun h => ?_) fun h v hv => h v (List.mem_cons_of_mem _ hv)
        split
        · exact nextPage_two h _
        · exact h
      rcases ih _ hs2 hd2 hf' hcl' hv (fun i q v hp hv => hpoll (i + 1) q v hp hv) with ⟨r, hr, hlast⟩ | hle
      · exact .inl ⟨r, List.mem_cons_of_mem _ hr, hlast⟩
      · right
        rw [List.flatMap_cons, List.length_append, List.length_cons]
        have := List.length_pos_iff.mpr hl
        omega

end Hyperbee
