import Verif.SpecCover
import Verif.Proof.Sub
import Verif.Proof.Refine
/-!
# Configurations that lead to the same traversal
-/

namespace Hyperbee

/-- Two configurations between which a traversal cannot tell: the same direction, the same bound to
start from, and the same answer of the bounds check for every key on the right side of that bound. -/
structure Alike (conf conf' : TraverseConfig) : Prop where
  iter : ∀ a nk nc, makeChildKeyIndexIter conf a nk nc = makeChildKeyIndexIter conf' a nk nc
  check : ∀ k, StartOK conf k → conf.inBounds k = conf'.inBounds k

def Frame.withConf (conf : TraverseConfig) (f : Frame) : Frame := { f with config := conf }

/-- The same result, but for the configuration the stream left over carries. -/
def swapConf (conf : TraverseConfig) (r : Except Err (PollR × List Frame) × St) : Except Err (PollR × List Frame) × St :=
  (r.1.map fun x => (x.1, x.2.map (Frame.withConf conf)), r.2)

theorem pollSetup_alike {conf conf' : TraverseConfig} (hA : Alike conf conf') (ready : Bool) {f : Frame}
    (hc : f.config = conf) (s : St) :
    pollSetup ready (f.withConf conf') s = swapConf conf' (pollSetup ready f s) := by
  obtain ⟨cf, rt, nf, nk, itf, it, nky, nch⟩ := f
  simp only at hc
  subst hc
  show pollSetup ready ⟨conf', rt, nf, nk, itf, it, nky, nch⟩ s = _
  unfold pollSetup
  cases nk with
  | none =>
    simp only []
    cases nf with
    | false => rfl
    | true =>
      cases ready with
      | false => rfl
      | true =>
        simp only [bind_run, swapConf, Bool.true_eq_false, if_false]
        generalize readNode rt s = o
        obtain ⟨o1, o2⟩ := o
        cases o1 <;> rfl
  | some x =>
    obtain ⟨x1, x2⟩ := x
    simp only []
    cases it with
    | none =>
      simp only []
      cases itf with
      | none => rfl
      | some b =>
        cases b with
        | true => rfl
        | false =>
          cases ready with
          | false => rfl
          | true =>
            simp only [bind_run, swapConf, Bool.true_eq_false, if_false, ← hA.iter]
            generalize tryResult (makeChildKeyIndexIter cf rt x1 x2) s = o
            obtain ⟨o1, o2⟩ := o
            cases o1 with
            | error e => rfl
            | ok o => cases o <;> rfl
    | some is =>
      cases is with
      | nil => rfl
      | cons j is =>
        simp only []
        by_cases hj : j % 2 = 0
        · simp only [hj, if_true]; rfl
        · simp only [hj, if_false]; rfl

theorem poll_alike {conf conf' : TraverseConfig} (hA : Alike conf conf') {t : T} (ready : Bool) :
    ∀ (fs : List Frame) {s : St}, SWF s → Safe s conf t fs →
      poll ready (fs.map (Frame.withConf conf')) s = swapConf conf' (poll ready fs s) := by
  intro fs
  induction fs with
  | nil => intro s _ h; exact absurd rfl h.1
  | cons f rest ih =>
    intro s hw hsafe
    have hf := hsafe.2 f (by simp)
    obtain ⟨h, n, v, ha, hsub, hconf, hnkc, hfut, hiter, hkey, hchild, hgo⟩ := id hf
    simp only [List.map_cons]
    unfold poll
    rw [show (f.withConf conf').nextKey = f.nextKey from rfl]
    cases hk : f.nextKey with
    | some p =>
      obtain ⟨i, b⟩ := p
      obtain ⟨rfl, hi⟩ := hkey i b hk
      cases ready with
      | false => rfl
      | true =>
        simp only [Bool.true_eq_false, Bool.false_eq_true, if_false]
        have hn := v.heap ha
        have hkeys : n.node.keys = n.keys := by cases n; rfl
        have hq : n.keys[i]? = some n.keys[i] := List.getElem?_eq_getElem hi
        obtain ⟨bk, hb⟩ := v.dfdKeys n.keys[i] (List.getElem_mem hi)
        obtain ⟨s', h7, e7⟩ := getKeyValue_run hw hn (i := i) (q := n.keys[i]) (by rw [hkeys]; exact hq) hb
        rw [show (f.withConf conf').root = f.root from rfl, bind_ok (tryResult_ok h7), bind_ok (tryResult_ok h7)]
        simp only []
        have hs := hgo.2 i false hk _ hq
        rw [show (f.withConf conf').config = conf' from rfl, hconf, ← hA.check _ hs]
        split <;> rfl
    | none =>
      simp only []
      rw [show (f.withConf conf').nextChild = f.nextChild from rfl]
      cases hc : f.nextChild with
      | some i =>
        simp only []
        cases ready with
        | false => rfl
        | true =>
          simp only [Bool.true_eq_false, if_false, show (f.withConf conf').root = f.root from rfl, bind_run, swapConf]
          generalize tryResult (getChild f.root i) s = o
          obtain ⟨o1, o2⟩ := o
          cases o1 with
          | error e => rfl
          | ok o => cases o <;> rfl
      | none =>
        simp only []
        cases rest with
        | nil => exact pollSetup_alike hA ready hconf s
        | cons c cs =>
          have := ih hw ⟨by simp, fun g hg => hsafe.2 g (List.mem_cons_of_mem _ hg)⟩
          simp only [List.map_cons] at this ⊢
          simp only [bind_run, this, swapConf]
          generalize poll ready (c :: cs) s = o
          obtain ⟨o1, o2⟩ := o
          cases o1 with
          | error e => rfl
          | ok o =>
            obtain ⟨r, fs'⟩ := o
            cases r with
            | pending w w' => rfl
            | ready item w => cases item <;> rfl

theorem drive_alike {β : Type} {post : Except Err KeyValueData → M β} (hpost : ∀ x s, (post x s).2 = s)
    {conf conf' : TraverseConfig} (hA : Alike conf conf') {t : T} :
    ∀ (sched : List Bool) (fs : List Frame) {s : St}, SWF s → Safe s conf t fs →
      drive post sched (fs.map (Frame.withConf conf')) s =
        ((drive post sched fs s).1.map fun x => (x.1, x.2.map (List.map (Frame.withConf conf'))),
          (drive post sched fs s).2) := by
  intro sched
  induction sched with
  | nil => intro fs s _ _; rfl
  | cons r rs ih =>
    intro fs s hw hsafe
    obtain ⟨p, fs', s1, h1, e1, hp⟩ := poll_safe r fs hw hsafe
    have h2 := poll_alike hA r fs hw hsafe
    rw [h1] at h2
    unfold drive
    simp only [bind_run, h1, h2, swapConf, Except.map]
    cases p with
    | pending w w' => exact ih fs' e1.wf hp
    | ready item w =>
      cases item with
      | none => rfl
      | some x =>
        obtain ⟨x, a⟩ := x
        simp only [bind_run]
        have hpo := hpost x s1
        generalize post x s1 = o at hpo ⊢
        obtain ⟨o1, o2⟩ := o
        simp only at hpo
        subst hpo
        cases o1 with
        | error e => rfl
        | ok y =>
          simp only []
          rw [ih fs' e1.wf hp.1]
          generalize drive post rs fs' o2 = o
          obtain ⟨o1, o3⟩ := o
          cases o1 <;> rfl

/-- Like configurations make the same traversal. -/
theorem collect_alike {conf conf' : TraverseConfig} (hA : Alike conf conf') {s : St} {H : Nat} {t : T}
    (ht : TreeAt s.core H t) (hw : SWF s) (hc : Coh s (· ∈ t.refs)) (sched : List Bool) :
    collect sched conf' s = ((collect sched conf s).1.map fun x => (x.1, x.2.map (List.map (Frame.withConf conf'))),
      (collect sched conf s).2) := by
  obtain ⟨a, s1, h1, e1, ha⟩ := getRoot_run ht hw false
  have htr : ∀ cf, traverse cf s = (.ok [Frame.new a cf], s1) := by
    intro cf
    unfold traverse
    rw [bind_ok h1]
    rfl
  obtain ⟨fs, s2, h2, e2, hsafe⟩ := traverse_safe ht hw hc conf
  rw [htr conf] at h2
  injection h2 with h2 h3
  injection h2 with h2
  subst h2 h3
  unfold collect
  rw [bind_ok (htr conf), bind_ok (htr conf')]
  exact drive_alike (fun _ _ => rfl) hA sched [Frame.new a conf] e2.wf hsafe

/-! ## Every configuration is like one whose bounds check is right -/

theorem mended (conf : TraverseConfig) : ∃ conf', Alike conf conf' ∧ conf'.Sound ∧ conf'.reversed = conf.reversed ∧
    ∀ k, InRange conf' k ↔ Covers conf k := by
  by_cases hx : ∀ lo, conf.minValue = .finite lo → conf.minInclusive = true → BelowMax conf.maxValue conf.maxInclusive lo
  · refine ⟨conf, ⟨fun _ _ _ => rfl, fun _ _ => rfl⟩, sound_of hx, rfl, fun k => ⟨.inl, ?_⟩⟩
    rintro (h | ⟨_, h2, h3⟩)
    · exact h
    · refine ⟨?_, hx k h3 h2⟩
      rw [h2, h3]
      exact .inr ⟨rfl, rfl⟩
  · obtain ⟨lo, hx⟩ := Classical.not_forall.mp hx
    simp only [Classical.not_imp] at hx
    obtain ⟨h1, h2, h3⟩ := hx
    obtain ⟨mn, mi, mx, xi, rv⟩ := conf
    simp only at h1 h2 h3
    subst h1 h2
    -- no key at or above `lo` is below the maximum
    have hno : ∀ k, lo ≤ k → ¬ BelowMax mx xi k := by
      intro k hk hb
      rcases List.le_iff_lt_or_eq.mp hk with h | h
      · exact h3 (belowMax_down hb h)
      · exact h3 (h ▸ hb)
    have hin : ∀ k, ¬ InRange ⟨.finite lo, true, mx, xi, rv⟩ k := by
      rintro k ⟨ha, hb⟩
      refine hno k ?_ hb
      rcases ha with ha | ⟨_, ha⟩
      · exact List.le_of_lt ha
      · exact ha ▸ List.le_refl _
    cases rv with
    | false =>
      refine ⟨⟨.finite lo, true, .finite lo, true, false⟩, ⟨fun _ _ _ => rfl, ?_⟩, sound_of ?_, rfl, fun k => ⟨?_, ?_⟩⟩
      · intro k _
        simp only [TraverseConfig.inBounds]
        cases hc : LimitValue.cmp (.finite lo) k with
        | gt => rfl
        | eq => rfl
        | lt =>
          simp only []
          have hlt : lo < k := by simpa only [LimitValue.cmp, bcmp_lt_iff] using hc
          have := hno k (List.le_of_lt hlt)
          rw [belowMax_iff] at this
          cases hm : mx.cmp k with
          | lt => rfl
          | gt => exact absurd (.inl hm) this
          | eq =>
            simp only []
            cases xi with
            | false => rfl
            | true => exact absurd (.inr ⟨rfl, hm⟩) this
      · intro lo' hl _
        cases hl
        exact .inr ⟨rfl, rfl⟩
      · rintro ⟨ha, hb⟩
        refine .inr ⟨rfl, rfl, ?_⟩
        rcases ha with ha | ⟨_, ha⟩
        · rcases hb with hb | ⟨_, hb⟩
          · exact absurd (blt_trans ha hb) (blt_irrefl _)
          · rw [hb]
        · rw [ha]
      · rintro (h | ⟨_, _, h⟩)
        · exact absurd h (hin k)
        · cases h
          exact ⟨.inr ⟨rfl, rfl⟩, .inr ⟨rfl, rfl⟩⟩
    | true =>
      refine ⟨⟨.finite lo, false, mx, xi, true⟩, ⟨fun _ _ _ => rfl, ?_⟩, sound_of ?_, rfl, fun k => ⟨?_, ?_⟩⟩
      · intro k hk
        simp only [StartOK, if_true] at hk
        simp only [TraverseConfig.inBounds]
        cases hc : LimitValue.cmp (.finite lo) k with
        | gt => rfl
        | lt => rfl
        | eq =>
          simp only [LimitValue.cmp, bcmp_eq_iff] at hc
          subst hc
          exact absurd hk h3
      · intro _ _ h
        cases h
      · rintro ⟨ha, hb⟩
        rcases ha with ha | ⟨ha, _⟩
        · exact absurd hb (hno k (List.le_of_lt ha))
        · cases ha
      · rintro (h | ⟨h, _⟩)
        · exact absurd h (hin k)
        · cases h

end Hyperbee
