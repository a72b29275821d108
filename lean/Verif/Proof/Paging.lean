import Verif.SpecPaging
import Verif.Props.Config
import Verif.Props.Traversal
/-!
# Reading page by page
-/

namespace Hyperbee

theorem Behind.trans {conf : TraverseConfig} {a b c : Bytes} (h : Behind conf a b) (h' : Behind conf b c) : Behind conf a c := by
  unfold Behind at *
  cases hr : conf.reversed with
  | true => rw [hr] at h h'; exact List.lt_trans (show c < b from h') (show b < a from h)
  | false => rw [hr] at h h'; exact List.lt_trans (show a < b from h) (show b < c from h')

/-- The builder of a page: the first one, or one for the keys behind `l`. -/
inductive Pager (b : TraverseConfigBuilder) (conf : TraverseConfig) : TraverseConfigBuilder → Option Bytes → Prop where
  | first : Pager b conf b none
  | behind {l : Bytes} : InRange conf l → Pager b conf (nextPage b l) (some l)

theorem nextPage_nextPage (b : TraverseConfigBuilder) (l k : Bytes) : nextPage (nextPage b l) k = nextPage b k := by
  unfold nextPage
  by_cases h : b.reversed = some true
  · simp [h]
  · simp [h]

theorem nextPage_reversed (b : TraverseConfigBuilder) (l : Bytes) : (nextPage b l).reversed = b.reversed := by
  unfold nextPage; split <;> rfl

theorem Pager.next {b b' : TraverseConfigBuilder} {conf : TraverseConfig} {o : Option Bytes} (h : Pager b conf b' o) {k : Bytes}
    (hk : InRange conf k) : Pager b conf (nextPage b' k) (some k) := by
  cases h with
  | first => exact .behind hk
  | behind _ => rw [nextPage_nextPage]; exact .behind hk

/-- What the page asks for: the range, but only behind the last key. -/
theorem Pager.range {b b' : TraverseConfigBuilder} {conf conf' : TraverseConfig} {o : Option Bytes} (hb : b.build = .ok conf)
    (h : Pager b conf b' o) (hb' : b'.build = .ok conf') :
    conf'.reversed = conf.reversed ∧ ∀ k, InRange conf' k ↔ InRange conf k ∧ ∀ l ∈ o, Behind conf l k := by
  cases h with
  | first => cases hb.symm.trans hb'; simp
  | @behind l hl =>
    obtain ⟨f1, f2, f3, f4, f5⟩ := build_fields hb
    obtain ⟨g1, g2, g3, g4, g5⟩ := build_fields hb'
    rw [nextPage_reversed, ← f5] at g5
    refine ⟨g5, fun k => ?_⟩
    unfold nextPage at g1 g2 g3 g4
    unfold InRange Behind at *
    by_cases hr : b.reversed = some true
    · have hc : conf.reversed = true := by rw [f5, hr]; rfl
      simp only [hr, if_true] at g1 g2 g3 g4
      rw [← f1] at g1; rw [← f2] at g2
      simp only [hc, if_true, g1, g2, g3, g4, Option.mem_def, Option.some.injEq, forall_eq', Option.getD_some]
      constructor
      · rintro ⟨h1, h2⟩
        have h2 : k < l := by simpa [BelowMax] using h2
        refine ⟨⟨h1, ?_⟩, h2⟩
        have := hl.2
        revert this
        unfold BelowMax
        split
        · exact id
        · exact id
        · rintro (h | ⟨_, rfl⟩)
          · exact .inl (List.lt_trans h2 h)
          · exact .inl h2
      · rintro ⟨⟨h1, _⟩, h2⟩
        exact ⟨h1, by simpa [BelowMax] using h2⟩
    · have hc : conf.reversed = false := by
        rw [f5]
        cases hx : b.reversed with
        | none => rfl
        | some x => cases x with
          | false => rfl
          | true => exact absurd hx hr
      simp only [hr, if_false] at g1 g2 g3 g4
      rw [← f3] at g3; rw [← f4] at g4
      simp only [hc, Bool.false_eq_true, if_false, g1, g2, g3, g4, Option.mem_def, Option.some.injEq, forall_eq', Option.getD_some]
      constructor
      · rintro ⟨h1, h2⟩
        have h1 : l < k := by simpa [AboveMin] using h1
        refine ⟨⟨?_, h2⟩, h1⟩
        have := hl.1
        revert this
        unfold AboveMin
        split
        · exact id
        · exact id
        · rintro (h | ⟨_, rfl⟩)
          · exact .inl (List.lt_trans h h1)
          · exact .inl h1
      · rintro ⟨⟨_, h1⟩, h2⟩
        exact ⟨by simpa [AboveMin] using h2, h1⟩

/-- A page is refused only if nothing can be behind the last key. -/
theorem Pager.refused {b b' : TraverseConfigBuilder} {conf : TraverseConfig} {o : Option Bytes} {e : Err} (hb : b.build = .ok conf)
    (hfin : FiniteBounds b) (h : Pager b conf b' o) (hb' : b'.build = .error e) {k : Bytes} (hk : InRange conf k)
    (ho : ∀ l ∈ o, Behind conf l k) : False := by
  have hno : ¬ ∃ conf', b'.build = .ok conf' := by rintro ⟨c, hc⟩; rw [hb'] at hc; cases hc
  rw [builder_accepts] at hno
  cases h with
  | first => exact absurd ((builder_accepts b).mp ⟨_, hb⟩) hno
  | @behind l hl =>
    obtain ⟨f1, f2, f3, f4, f5⟩ := build_fields hb
    have hlk := ho l rfl
    unfold nextPage at hno
    unfold Behind at hlk
    unfold InRange at hk
    by_cases hr : b.reversed = some true
    · have hc : conf.reversed = true := by rw [f5, hr]; rfl
      rw [if_pos hc] at hlk
      simp only [hr, if_true] at hno
      cases hm : b.minValue with
      | none => exact hno (.inl hm)
      | some m =>
        cases m with
        | infinite x => exact (hfin x).1 hm
        | finite lo =>
          refine hno (.inr (.inr ⟨lo, l, hm, rfl, .inl ?_⟩))
          rw [← byteLt_iff]
          have := hk.1
          rw [f1, hm] at this
          rcases (this : lo < k ∨ _) with h | ⟨_, rfl⟩
          · exact List.lt_trans h hlk
          · exact hlk
    · have hc : ¬ conf.reversed = true := by
        rw [f5]
        intro h
        cases hx : b.reversed with
        | none => rw [hx] at h; cases h
        | some x => rw [hx] at h; cases h; exact hr hx
      rw [if_neg hc] at hlk
      simp only [hr, if_false] at hno
      cases hm : b.maxValue with
      | none => exact hno (.inr (.inl hm))
      | some m =>
        cases m with
        | infinite x => exact (hfin x).2 hm
        | finite hi =>
          refine hno (.inr (.inr ⟨l, hi, rfl, hm, .inl ?_⟩))
          rw [← byteLt_iff]
          have := hk.2
          rw [f3, hm] at this
          rcases (this : k < hi ∨ _) with h | ⟨_, rfl⟩
          · exact List.lt_trans hlk h
          · exact hlk

/-- One page. -/
theorem page_cases {d : Db} {b b' : TraverseConfigBuilder} {conf : TraverseConfig} {o : Option Bytes} {r : Reply} {sched : List Bool}
    (hb : b.build = .ok conf) (hfin : FiniteBounds b) (h : Pager b conf b' o) (hr : d.Returns (.traverse b' sched) r) :
    ∃ o', Pager b conf (match r.entries.getLast? with | some e => nextPage b' e.key | none => b') o' ∧
      (r = .error .traverseConfigBuilder ∨ r = .error .noRoot ∧ d.version ≤ 1 ∨ ∃ (xs : List KeyValueData) (fin : Bool), r = .items (xs.map .ok) fin) ∧
      (∀ e ∈ r.entries, d.entry e.key = some e ∧ InRange conf e.key ∧ ∀ l ∈ o, Behind conf l e.key) ∧
      r.entries.Pairwise (fun x y => Behind conf x.key y.key) ∧
      (∀ k, (∀ l ∈ o', Behind conf l k) → (∀ e ∈ r.entries, Behind conf e.key k) ∧ ∀ l ∈ o, Behind conf l k) ∧
      (2 ≤ d.version → ∀ k, InRange conf k → (∀ l ∈ o, Behind conf l k) → d.map k ≠ none →
        (∃ e ∈ r.entries, e.key = k) ∨ (¬ r.lastPage ∧ ∀ l ∈ o', Behind conf l k)) := by
  simp only [Db.Returns] at hr
  cases hb' : b'.build with
  | error e =>
    rw [hb'] at hr
    have : e = .traverseConfigBuilder := by
      unfold TraverseConfigBuilder.build at hb'
      split at hb' <;> cases hb'
      rfl
    subst this
    subst hr
    exact ⟨o, h, .inl rfl, (by intro e he; cases he), .nil, fun k hk => ⟨(by intro e he; cases he), hk⟩,
      fun _ k hk ho _ => (h.refused hb hfin hb' hk ho).elim⟩
  | ok conf' =>
    rw [hb'] at hr
    simp only [] at hr
    obtain ⟨hrev, hran⟩ := h.range hb hb'
    split at hr
    · rename_i hv
      subst hr
      exact ⟨o, h, .inr (.inl ⟨rfl, hv⟩), (by intro e he; cases he), .nil, fun k hk => ⟨(by intro e he; cases he), hk⟩,
        fun hv' => by omega⟩
    · obtain ⟨full, xs, fin, ⟨hs, hm⟩, rfl, hx⟩ := hr
      have hent : (Reply.items (xs.map .ok) fin).entries = xs := by
        show (xs.map Except.ok).filterMap Except.toOption = xs
        rw [List.filterMap_map]
        exact List.filterMap_some
      have hpre : xs <+: full := by
        split at hx
        · rw [hx]; exact List.prefix_rfl
        · exact hx
      have hbey : full.Pairwise fun x y => Behind conf x.key y.key := by
        unfold Behind
        rw [hrev] at hs
        cases hc : conf.reversed with
        | true => rw [hc] at hs; exact List.pairwise_reverse.mp hs
        | false => rw [hc] at hs; exact hs
      rw [hent]
      have hin : ∀ e ∈ full, d.entry e.key = some e ∧ InRange conf e.key ∧ ∀ l ∈ o, Behind conf l e.key := by
        intro e he
        obtain ⟨h1, h2⟩ := (hm e).mp he
        exact ⟨h1, (hran _).mp h2⟩
      obtain ⟨tl, htl⟩ := hpre
      subst htl
      have hin1 := fun e he => hin e (List.mem_append_left tl he)
      obtain ⟨hp1, _, hp3⟩ := List.pairwise_append.mp hbey
      have hmem : ∀ k, InRange conf k → (∀ l ∈ o, Behind conf l k) → d.map k ≠ none → ∃ e ∈ xs ++ tl, e.key = k := by
        intro k hk ho hd
        obtain ⟨p, hp⟩ := Option.ne_none_iff_exists'.mp hd
        exact ⟨⟨p.1, k, p.2⟩, (hm _).mpr ⟨by simp [Db.entry, hp], (hran k).mpr ⟨hk, ho⟩⟩, rfl⟩
      have hfinx : fin = true → tl = [] := by
        rintro rfl
        have := congrArg List.length (show xs = xs ++ tl from hx)
        rw [List.length_append] at this
        exact List.length_eq_zero_iff.mp (by omega)
      rcases List.eq_nil_or_concat xs with rfl | ⟨ys, z, rfl⟩
      · refine ⟨o, h, .inr (.inr ⟨[], fin, rfl⟩), hin1, hp1, fun k hk => ⟨(by intro e he; cases he), hk⟩, fun _ k hk ho hd => ?_⟩
        refine .inr ⟨fun hl => ?_, ho⟩
        obtain ⟨e, he, _⟩ := hmem k hk ho hd
        rw [hfinx hl] at he
        cases he
      · rw [List.concat_eq_append] at *
        have hz : z ∈ ys ++ [z] := by simp
        refine ⟨some z.key, ?_, .inr (.inr ⟨_, fin, rfl⟩), hin1, hp1, fun k hk => ?_, fun _ k hk ho hd => ?_⟩
        · rw [List.getLast?_concat]
          exact h.next (hin1 z hz).2.1
        · have hzk := hk z.key rfl
          refine ⟨fun e he => ?_, fun l hl => ((hin1 z hz).2.2 l hl).trans hzk⟩
          rcases List.mem_append.mp he with he | he
          · exact ((List.pairwise_append.mp hp1).2.2 e he z (by simp)).trans hzk
          · rw [List.mem_singleton.mp he]; exact hzk
        · obtain ⟨e, he, rfl⟩ := hmem k hk ho hd
          rcases List.mem_append.mp he with he | he
          · exact .inl ⟨e, he, rfl⟩
          · refine .inr ⟨fun hl => ?_, ?_⟩
            · rw [hfinx hl] at he; cases he
            · rintro l ⟨⟩
              exact hp3 z hz e he

theorem paging_aux {b : TraverseConfigBuilder} {conf : TraverseConfig} (hb : b.build = .ok conf) (hfin : FiniteBounds b) :
    ∀ (ps : List (List Cmd × List Bool)) {s : St} {d : Db} {b' : TraverseConfigBuilder} {o : Option Bytes},
    Holds s d → Pager b conf b' o →
    (∀ (i : Nat) (r : Reply) (v : Db), (paging b' ps s)[i]? = some r → (views d ps)[i]? = some v →
      (r = .error .traverseConfigBuilder ∨ r = .error .noRoot ∧ v.version ≤ 1 ∨ ∃ (xs : List KeyValueData) (fin : Bool), r = .items (xs.map .ok) fin) ∧
      ∀ e ∈ r.entries, v.entry e.key = some e ∧ InRange conf e.key) ∧
    ((paging b' ps s).flatMap Reply.entries).Pairwise (fun x y => Behind conf x.key y.key) ∧
    (∀ e ∈ (paging b' ps s).flatMap Reply.entries, ∀ l ∈ o, Behind conf l e.key) ∧
    (∀ (j : Nat) (r : Reply), (paging b' ps s)[j]? = some r → r.lastPage → ∀ k, InRange conf k → (∀ l ∈ o, Behind conf l k) →
      (∀ (i : Nat) (v : Db), i ≤ j → (views d ps)[i]? = some v → v.map k ≠ none) →
      ∃ i r, i ≤ j ∧ (paging b' ps s)[i]? = some r ∧ ∃ e ∈ r.entries, e.key = k) := by
  intro ps
  induction ps with
  | nil =>
    intro s d b' o _ _
    exact ⟨fun i r v h => (by cases h), .nil, (by intro e he; cases he), fun j r h => (by cases h)⟩
  | cons p ps ih =>
    intro s d b' o hs hp
    obtain ⟨cs, sched⟩ := p
    have h1 := (run_refines cs hs).2
    obtain ⟨hret, h2⟩ := exec_refines h1 (.traverse b' sched)
    obtain ⟨o', q1, q2, q3, q4, q5, q6⟩ := page_cases hb hfin hp hret
    have hpg : paging b' ((cs, sched) :: ps) s = (exec (.traverse b' sched) (runSt cs s)).1 ::
      paging (match (exec (.traverse b' sched) (runSt cs s)).1.entries.getLast? with | some e => nextPage b' e.key | none => b')
        ps (exec (.traverse b' sched) (runSt cs s)).2 := rfl
    have hvw : views d ((cs, sched) :: ps) = d.after cs :: views (d.after cs) ps := rfl
    rw [hpg, hvw]
    generalize (exec (.traverse b' sched) (runSt cs s)).1 = r0 at *
    obtain ⟨i1, i2, i3, i4⟩ := ih (d := d.after cs) h2 q1
    generalize paging _ ps _ = rs at *
    generalize views _ ps = vs at *
    refine ⟨?_, ?_, ?_, ?_⟩
    · intro i r v hr hv
      cases i with
      | zero =>
        cases hr; cases hv
        exact ⟨q2, fun e he => ⟨(q3 e he).1, (q3 e he).2.1⟩⟩
      | succ i => exact i1 i r v hr hv
    · rw [List.flatMap_cons, List.pairwise_append]
      exact ⟨q4, i2, fun x hx y hy => (q5 y.key (i3 y hy)).1 x hx⟩
    · intro e he l hl
      rw [List.flatMap_cons] at he
      rcases List.mem_append.mp he with he | he
      · exact (q3 e he).2.2 l hl
      · exact (q5 e.key (i3 e he)).2 l hl
    · intro j r hr hlast k hk ho hpres
      have hd : (d.after cs).map k ≠ none := hpres 0 _ (Nat.zero_le _) rfl
      have hv2 : 2 ≤ (d.after cs).version := by
        rcases h1.store with hbare | ⟨H, t, ht, _, _⟩
        · exact absurd (hbare.2 k) hd
        · rw [h1.ver]; exact ht.two
      rcases q6 hv2 k hk ho hd with h | ⟨h3, h4⟩
      · exact ⟨0, r0, Nat.zero_le _, rfl, h⟩
      · cases j with
        | zero => cases hr; exact absurd hlast h3
        | succ j =>
          obtain ⟨i, r', g1, g2, g3⟩ := i4 j r hr hlast k hk h4 fun i v hi hv => hpres (i + 1) v (by omega) hv
          exact ⟨i + 1, r', by omega, g2, g3⟩

end Hyperbee
