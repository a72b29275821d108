import Verif.Proof.SubFlaky
import Verif.Proof.SubPaging
/-!
# Traversals of sub-databases in which reads fail
-/

namespace Hyperbee

/-- An entry with the prefix cut off. -/
def Prefixed.cut (p : Prefixed) (x : KeyValueData) : KeyValueData := { x with key := x.key.drop (p.pre.length + p.sep.length) }

/-- Where the bounds enclose of what is stored exactly the sub-database, what is listed between them is the
listing of the sub-database. -/
theorem sub_listing {s : St} {d : Db} (hd : Holds s d) (p : Prefixed) {conf : TraverseConfig} (hS : (p.boundedConf conf).Sound)
    (hr : ∀ x, d.map x ≠ none → (InRange (p.boundedConf conf) x ↔ ∃ y, x = p.pre ++ p.sep ++ y ∧ InRange conf y))
    {H : Nat} {t : T} (ht : TreeAt s.core H t) (hcon : Contents s.core t.flat d) :
    SubLists p s conf ((listing s.core (p.boundedConf conf) t).map fun q => p.cut (kvOf s.core q)) ∧
    ∀ q ∈ listing s.core (p.boundedConf conf) t, p.pre.length + p.sep.length ≤ (keyOf s.core q).length := by
  have hl := listing_isListing ht hcon hS
  let bc := p.boundedConf conf
  let n := p.pre.length + p.sep.length
  have hplen : (p.pre ++ p.sep).length = n := List.length_append
  -- what is listed has the prefix
  have hpre : ∀ q ∈ listing s.core bc t, ∃ y, keyOf s.core q = p.pre ++ p.sep ++ y ∧ InRange conf y ∧
      d.map (p.pre ++ p.sep ++ y) = some (q, valOf s.core q) := by
    intro q hq
    have hm := (hl.2 (kvOf s.core q)).mp (List.mem_map_of_mem hq)
    have hmap : d.map (keyOf s.core q) = some (q, valOf s.core q) := by
      have h1 : d.entry (keyOf s.core q) = some (kvOf s.core q) := hm.1
      rw [Db.entry_eq] at h1
      cases hx : d.map (keyOf s.core q) with
      | none => rw [hx] at h1; cases h1
      | some z =>
        rw [hx] at h1
        simp only [Option.map_some, Option.some.injEq] at h1
        have e1 : z.1 = q := congrArg KeyValueData.seq h1
        have e2 : z.2 = valOf s.core q := congrArg KeyValueData.value h1
        rw [← e2, ← e1]
    obtain ⟨y, hy, hy2⟩ := (hr (keyOf s.core q) (by rw [hmap]; simp)).mp hm.2
    exact ⟨y, hy, hy2, hy ▸ hmap⟩
  have hcut : ∀ q y, keyOf s.core q = p.pre ++ p.sep ++ y → p.cut (kvOf s.core q) = ⟨q, y, valOf s.core q⟩ := by
    intro q y h
    show (⟨q, (keyOf s.core q).drop n, valOf s.core q⟩ : KeyValueData) = _
    rw [h, List.drop_append_of_le_length (by omega), List.drop_eq_nil_of_le (by omega), List.nil_append]
  refine ⟨⟨?_, ?_⟩, fun q hq => ?_⟩
  · -- order
    have h1 := hl.1
    rw [boundedConf_reversed] at h1
    have hgen : ∀ l : List Nat, (∀ q ∈ l, ∃ y, keyOf s.core q = p.pre ++ p.sep ++ y) →
        (l.map (kvOf s.core)).Pairwise (fun a b => a.key < b.key) →
        (l.map fun q => p.cut (kvOf s.core q)).Pairwise (fun a b => a.key < b.key) := by
      intro l hpl hpw
      rw [List.pairwise_map] at hpw ⊢
      refine hpw.imp_of_mem ?_
      intro q1 q2 m1 m2 hlt
      obtain ⟨y1, e1⟩ := hpl q1 m1
      obtain ⟨y2, e2⟩ := hpl q2 m2
      rw [hcut q1 y1 e1, hcut q2 y2 e2]
      have : keyOf s.core q1 < keyOf s.core q2 := hlt
      rw [e1, e2, append_lt_iff] at this
      exact this
    have hp' : ∀ q ∈ listing s.core bc t, ∃ y, keyOf s.core q = p.pre ++ p.sep ++ y :=
      fun q hq => let ⟨y, e, _⟩ := hpre q hq; ⟨y, e⟩
    cases hrev : conf.reversed with
    | false => rw [hrev] at h1; exact hgen _ hp' h1
    | true =>
      rw [hrev] at h1
      simp only [if_true, ← List.map_reverse] at h1 ⊢
      exact hgen _ (fun q hq => hp' q (List.mem_reverse.mp hq)) h1
  · -- members
    intro e
    have hget : (p.exec (.get e.key) s).1 = .got (some (e.seq, e.value)) ↔
        d.map (p.pre ++ p.sep ++ e.key) = some (e.seq, e.value) := by
      have : (p.exec (.get e.key) s).1 = .got (d.map (p.pre ++ p.sep ++ e.key)) :=
        (exec_refines hd (.get (p.pre ++ p.sep ++ e.key))).1
      rw [this]
      constructor
      · intro h; injection h
      · intro h; rw [h]
    rw [hget]
    constructor
    · intro he
      obtain ⟨q, hq, rfl⟩ := List.mem_map.mp he
      obtain ⟨y, hy, hin, hmap⟩ := hpre q hq
      rw [hcut q y hy]
      exact ⟨hmap, hin⟩
    · rintro ⟨hm, hin⟩
      obtain ⟨m1, m2, m3⟩ := (hcon _ _ _).mp hm
      have hin' : InRange bc (p.pre ++ p.sep ++ e.key) := (hr _ (by rw [hm]; simp)).mpr ⟨_, rfl, hin⟩
      have hmem : e.seq ∈ listing s.core bc t := by
        have hk : kvOf s.core e.seq = ⟨e.seq, p.pre ++ p.sep ++ e.key, e.value⟩ := by
          show (⟨e.seq, keyOf s.core e.seq, valOf s.core e.seq⟩ : KeyValueData) = _
          rw [m2, m3]
        have := (hl.2 ⟨e.seq, p.pre ++ p.sep ++ e.key, e.value⟩).mpr ⟨by rw [Db.entry_eq, hm]; rfl, hin'⟩
        obtain ⟨q, hq, hqe⟩ := List.mem_map.mp this
        have : q = e.seq := congrArg KeyValueData.seq hqe
        exact this ▸ hq
      refine List.mem_map.mpr ⟨e.seq, hmem, ?_⟩
      rw [hcut _ _ m2, m3]
  · -- length
    obtain ⟨y, hy, _⟩ := hpre q hq
    rw [hy, List.length_append, List.length_append]
    omega

/-- Items with the prefix cut off. -/
def Prefixed.cutE (p : Prefixed) : Except Err KeyValueData → Except Err KeyValueData
  | .ok x => .ok (p.cut x)
  | .error e => .error e

theorem Account.ok_mem {xs : List (Except Err KeyValueData)} {all rest : List KeyValueData} (h : Account xs all rest) :
    ∀ y, .ok y ∈ xs → y ∈ all := by
  induction h with
  | rest l => intro y hy; cases hy
  | ok _ ih =>
    intro y hy
    rcases List.mem_cons.mp hy with hy | hy
    · cases hy; exact List.mem_cons_self
    · exact List.mem_cons_of_mem _ (ih y hy)
  | lost _ ih =>
    intro y hy
    rcases List.mem_cons.mp hy with hy | hy
    · cases hy
    · exact List.mem_append_right _ (ih y hy)

theorem Account.cut (p : Prefixed) {xs : List (Except Err KeyValueData)} {all rest : List KeyValueData} (h : Account xs all rest) :
    Account (xs.map p.cutE) (all.map p.cut) (rest.map p.cut) := by
  induction h with
  | rest l => exact .rest _
  | ok _ ih => exact .ok ih
  | lost _ ih => rw [List.map_append]; exact .lost ih

theorem Ended.cut (p : Prefixed) {xs : List (Except Err KeyValueData)} (h : Ended xs) : Ended (xs.map p.cutE) := by
  obtain ⟨e, h1, h2⟩ := h
  exact ⟨e, by rw [List.getLast?_map, h1]; rfl, h2⟩

theorem error_mem_cut {p : Prefixed} {xs : List (Except Err KeyValueData)} {e : Err} (h : .error e ∈ xs.map p.cutE) : .error e ∈ xs := by
  obtain ⟨x, hx, he⟩ := List.mem_map.mp h
  cases x with
  | ok x => cases he
  | error e' => cases he; exact hx

/-- If whatever comes has the prefix, driving the stream of a sub-database is driving that of the tree. -/
theorem drive_cut (p : Prefixed) : ∀ (sched : List Bool) (fs : List Frame) (F : List (Option Fault)) (s : St),
    (∀ before xs fin t, before <+: sched → (Prog.drive (Pure.pure : _ → Prog _) before fs).flaky F s = (.ok (xs, fin), t) →
      ∀ y, .ok y ∈ xs → p.pre.length + p.sep.length ≤ y.key.length) →
    (Prog.drive (Prog.strip p) sched fs).flaky F s =
      match (Prog.drive (Pure.pure : _ → Prog _) sched fs).flaky F s with
      | (.ok r, t) => (.ok (r.1.map p.cutE, r.2), t)
      | (.error e, t) => (.error e, t) := by
  intro sched
  induction sched with
  | nil => intro fs F s _; rfl
  | cons r rs ih =>
    intro fs F s hlong
    obtain ⟨F1, hF1⟩ := flaky_bind (Prog.poll r fs) F s
    unfold Prog.drive at hlong ⊢
    rw [hF1, hF1]
    cases hp : (Prog.poll r fs).flaky F s with
    | mk o u =>
      cases o with
      | error e => rfl
      | ok pr =>
        obtain ⟨p', fs1⟩ := pr
        cases p' with
        | pending a b =>
          refine ih fs1 F1 u fun before xs fin t hb h => ?_
          refine hlong (r :: before) xs fin t (List.cons_prefix_cons.mpr ⟨rfl, hb⟩) ?_
          simp only []
          rw [hF1, hp]
          exact h
        | ready item w =>
          cases item with
          | none => rfl
          | some it =>
            obtain ⟨y, a⟩ := it
            have hlong1 : ∀ before xs fin t, before <+: rs →
                (Prog.drive (Pure.pure : _ → Prog (Except Err KeyValueData)) before fs1).flaky F1 u = (.ok (xs, fin), t) →
                ∀ z, .ok z ∈ y :: xs → p.pre.length + p.sep.length ≤ z.key.length := by
              intro before xs fin t hb h
              refine hlong (r :: before) (y :: xs) fin t (List.cons_prefix_cons.mpr ⟨rfl, hb⟩) ?_
              simp only []
              rw [hF1, hp]
              show (Prog.drive (Pure.pure : _ → Prog (Except Err KeyValueData)) before fs1 >>= fun z => Pure.pure (y :: z.1, z.2)).flaky F1 u = _
              obtain ⟨F2, hF2⟩ := flaky_bind (Prog.drive (Pure.pure : _ → Prog (Except Err KeyValueData)) before fs1) F1 u
              rw [hF2, h]
              rfl
            have hy : Prog.strip p y = Pure.pure (p.cutE y) := by
              cases y with
              | error e => rfl
              | ok y =>
                have := hlong1 [] [] (some fs1) u List.nil_prefix rfl y List.mem_cons_self
                unfold Prog.strip
                dsimp only
                rw [if_pos this]
                rfl
            show (Prog.strip p y >>= fun x => Prog.drive (Prog.strip p) rs fs1 >>= fun z => Pure.pure (x :: z.1, z.2)).flaky F1 u =
              match (Prog.drive (Pure.pure : _ → Prog (Except Err KeyValueData)) rs fs1 >>= fun z => Pure.pure (y :: z.1, z.2)).flaky F1 u with
              | (.ok r, t) => (.ok (r.1.map p.cutE, r.2), t)
              | (.error e, t) => (.error e, t)
            rw [hy]
            show (Prog.drive (Prog.strip p) rs fs1 >>= fun z => Pure.pure (p.cutE y :: z.1, z.2)).flaky F1 u = _
            have hi := ih fs1 F1 u fun before xs fin t hb h z hz => hlong1 before xs fin t hb h z (List.mem_cons_of_mem _ hz)
            obtain ⟨F2, hF2⟩ := flaky_bind (Prog.drive (Pure.pure : _ → Prog (Except Err KeyValueData)) rs fs1) F1 u
            obtain ⟨F3, hF3⟩ := flaky_bind (Prog.drive (Prog.strip p) rs fs1) F1 u
            rw [hF2, hF3, hi]
            cases (Prog.drive (Pure.pure : _ → Prog (Except Err KeyValueData)) rs fs1).flaky F1 u with
            | mk o v => cases o <;> rfl

/-- A traversal of a sub-database with failing reads. -/
theorem sub_traverse_flakes {s : St} {H : Nat} {n : T} (ht : TreeAt s.core H n) (hw : SWF s) (hc : Coh s (· ∈ n.refs))
    {b : TraverseConfigBuilder} {conf : TraverseConfig} (hb : b.build = .ok conf) (p : Prefixed) (hS : (p.boundedConf conf).Sound)
    (hlong : ∀ q ∈ listing s.core (p.boundedConf conf) n, p.pre.length + p.sep.length ≤ (keyOf s.core q).length)
    (sched : List Bool) (F : List (Option Fault)) :
    let full := (listing s.core (p.boundedConf conf) n).map fun q => p.cut (kvOf s.core q)
    let X : List Bool → Reply := fun sched => (execFlakyVia F (some p, .traverse b sched) s).1
    (∃ e, ReadErr e ∧ X sched = .error e) ∨
      (∃ xs fin rest, X sched = .items xs fin ∧ Account xs full rest ∧
        (∀ e, .error e ∈ xs → Skipped e ∨ Broken e) ∧ (fin = true → rest = []) ∧
        (fin = false → Ended xs ∨ sched.count true ≤ n.cost)) ∨
      (X sched = .error resumed ∧ ∃ before xs, before <+: sched ∧ X before = .items xs false ∧ Ended xs) := by
  intro full X
  have hX : ∀ sched, X sched = match ((Prog.subTraverse p b sched).flaky F s).1 with
      | .ok r => .items r.1 r.2 | .error e => .error e := by
    intro sched
    show (match (Prog.replyOf (fun r : List (Except Err KeyValueData) × Bool => Reply.items r.1 r.2) (Prog.subTraverse p b sched)).flaky F s with
      | (.ok r, t) => ((r, t) : Reply × St) | (.error e, t) => (Reply.error e, t)).1 = _
    rw [replyOf_flaky]
    cases ((Prog.subTraverse p b sched).flaky F s).1 <;> rfl
  obtain ⟨fs, s1, h1, e1, hst⟩ := traverse_run ht hw hc (p.boundedConf conf)
  have hdo : (Prog.traverse (p.boundedConf conf)).run s = (.ok fs, s1) := by rw [does_traverse]; exact h1
  obtain ⟨F1, hF1⟩ := flaky_bind (Prog.traverse (p.boundedConf conf)) F s
  have hses : ∀ sched, (Prog.subTraverse p b sched).flaky F s = match (Prog.traverse (p.boundedConf conf)).flaky F s with
      | (.ok a, t) => (Prog.drive (Prog.strip p) sched a >>= fun r => Pure.pure (r.1, r.2.isNone)).flaky F1 t
      | (.error e, t) => (.error e, t) := by
    intro sched
    unfold Prog.subTraverse
    simp only [hb]
    rw [hF1]
    cases (Prog.traverse (p.boundedConf conf)).flaky F s with
    | mk o t => cases o <;> rfl
  rcases (frail_acts.traverse_ (p.boundedConf conf) s fs s1 hw hdo).2 _ _ (flaky_flakes (Prog.traverse (p.boundedConf conf)) F s) with
    ⟨g1, g2⟩ | ⟨e, g1, g2, g3⟩
  · have hok : (Prog.traverse (p.boundedConf conf)).flaky F s = (.ok fs, s1) := by rw [← g1, ← g2]
    rw [hok] at hses
    have hall : ∀ sched, ∀ before xs fin t, before <+: sched →
        (Prog.drive (Pure.pure : _ → Prog _) before fs).flaky F1 s1 = (.ok (xs, fin), t) →
        ∀ y, .ok y ∈ xs → p.pre.length + p.sep.length ≤ y.key.length := by
      intro _ before xs fin t _ h y hy
      have := flaky_flakes (Prog.drive (Pure.pure : _ → Prog (Except Err KeyValueData)) before fs) F1 s1
      rw [h] at this
      obtain ⟨_, k⟩ := drive_flakes hS before s1 fs _ _ e1.core hst e1.wf this
      rcases k with ⟨xs', fin', rest', k, k2, _⟩ | k
      · cases k
        obtain ⟨q, hq, rfl⟩ := List.mem_map.mp (k2.ok_mem y hy)
        exact hlong q hq
      · cases k
    have hX' : ∀ sched, X sched = match ((Prog.drive (Pure.pure : _ → Prog _) sched fs).flaky F1 s1).1 with
          | .ok r => .items (r.1.map p.cutE) r.2.isNone | .error e => .error e := by
      intro sched
      rw [hX, hses]
      obtain ⟨F2, hF2⟩ := flaky_bind (Prog.drive (Prog.strip p) sched fs) F1 s1
      simp only [hF2]
      rw [drive_cut p sched fs F1 s1 (hall sched)]
      cases (Prog.drive (Pure.pure : _ → Prog (Except Err KeyValueData)) sched fs).flaky F1 s1 with
      | mk o t => cases o <;> rfl
    obtain ⟨e2, h2⟩ := drive_flakes hS sched s1 fs _ _ e1.core hst e1.wf (flaky_flakes _ F1 s1)
    rcases h2 with ⟨xs, fin, rest, h2, h3, h4, h5⟩ | h2
    · refine .inr (.inl ⟨xs.map p.cutE, fin.isNone, (rest.map (kvOf s.core)).map p.cut, ?_, ?_, fun e he => h4 e (error_mem_cut he), ?_, ?_⟩)
      · rw [hX', h2]
      · have := h3.cut p
        rwa [List.map_map] at this
      · intro hfin
        cases fin with
        | none => rw [show rest = [] from h5]; rfl
        | some fs' => cases hfin
      · intro hfin
        cases fin with
        | none => cases hfin
        | some fs' =>
          rcases h5 with h5 | ⟨f', _, h5⟩
          · exact .inl (h5.cut p)
          · exact .inr (by omega)
    · refine .inr (.inr ⟨by rw [hX', h2], ?_⟩)
      obtain ⟨before, x, after, xs, fs', u, F', k1, k2, k3⟩ := drive_error sched fs F1 s1 _ resumed
        (show (Prog.drive Pure.pure sched fs).flaky F1 s1 = (_, _) by rw [← h2])
      refine ⟨before, xs.map p.cutE, ⟨x :: after, k1.symm⟩, ?_, Ended.cut p ?_⟩
      · rw [hX', k2]; rfl
      · have := flaky_flakes (Prog.drive (Pure.pure : _ → Prog (Except Err KeyValueData)) before fs) F1 s1
        rw [k2] at this
        obtain ⟨e3, k4⟩ := drive_flakes hS before s1 fs _ _ e1.core hst e1.wf this
        rcases k4 with ⟨xs', fin', rest', k4, _, _, k5⟩ | k4
        · cases k4
          rcases k5 with k5 | ⟨f', k5, _⟩
          · exact k5
          · have hp := flaky_flakes (Prog.poll x fs') F' u
            rw [k3] at hp
            rcases poll_flakes hS k5 e3.wf x hp with k6 | ⟨_, _, _, _, k6, _⟩
            · obtain ⟨p, fs2, s2, k7, _⟩ := poll_run hS k5 e3.wf x
              rw [does_poll, k7] at k6
              cases k6
            · cases k6
        · cases k4
  · have herr : (Prog.traverse (p.boundedConf conf)).flaky F s = (.error e, ((Prog.traverse (p.boundedConf conf)).flaky F s).2) := by rw [← g2]
    rw [herr] at hses
    exact .inl ⟨e, g1, by rw [hX, hses]⟩

end Hyperbee
