import Verif.Model.SubAsync
import Verif.Proof.SubAsync
import Verif.Proof.FlakyStream
import Verif.Proof.Trouble
import Verif.SpecSub
/-!
# Traversals of sub-databases when reads fail
-/

namespace Hyperbee

/-- The item is an entry whose key is too short to be cut. -/
def Prefixed.tooShort (p : Prefixed) (y : Except Err KeyValueData) : Prop := ∃ e, y = .ok e ∧ e.key.length < p.len

theorem Prog.strip_long {p : Prefixed} {y : Except Err KeyValueData} (h : ¬ p.tooShort y) :
    Prog.strip p y = Pure.pure (p.cutItem y) := by
  cases y with
  | error e => rfl
  | ok e =>
    unfold Prog.strip
    dsimp only
    rw [if_pos]
    · rfl
    · rcases Nat.lt_or_ge e.key.length p.len with hlt | hge
      · exact absurd ⟨e, rfl, hlt⟩ h
      · exact hge

theorem Prog.strip_short {p : Prefixed} {e : KeyValueData} (h : e.key.length < p.len) :
    Prog.strip p (.ok e) = .throw (.panic "prefixed.rs:171 key.drain(..len_drain)") := by
  unfold Prog.strip
  dsimp only
  rw [if_neg]
  exact Nat.not_le.mpr h

/-- The stream with the closure over it, compared to the stream without. -/
theorem drive_strip (p : Prefixed) : ∀ (sched : List Bool) (fs : List Frame) (F : List (Option Fault)) (s : St),
    ((Prog.drive (Prog.strip p) sched fs).flaky F s =
        (match (Prog.drive (Pure.pure : _ → Prog _) sched fs).flaky F s with
          | (.ok r, t) => (.ok (r.1.map p.cutItem, r.2), t)
          | (.error e, t) => (.error e, t)) ∧
      ∀ r t, (Prog.drive (Pure.pure : _ → Prog _) sched fs).flaky F s = (.ok r, t) → ∀ y ∈ r.1, ¬ p.tooShort y) ∨
    ∃ before xs e fin t, (Prog.drive (Pure.pure : _ → Prog _) before fs).flaky F s = (.ok (xs ++ [.ok e], fin), t) ∧
      (∀ y ∈ xs, ¬ p.tooShort y) ∧ e.key.length < p.len ∧
      (Prog.drive (Prog.strip p) sched fs).flaky F s = (.error (.panic "prefixed.rs:171 key.drain(..len_drain)"), t) := by
  intro sched
  induction sched with
  | nil =>
    intro fs F s
    refine .inl ⟨rfl, fun r t h => ?_⟩
    cases h
    simp
  | cons rd rs ih =>
    intro fs F s
    obtain ⟨F1, hF⟩ := flaky_bind (Prog.poll rd fs) F s
    cases hp : (Prog.poll rd fs).flaky F s with
    | mk o u =>
      have hF' := fun {β : Type} (f : _ → Prog β) => (hF f).trans (by rw [hp])
      cases o with
      | error e =>
        refine .inl ⟨?_, fun r t h => ?_⟩
        · unfold Prog.drive
          rw [hF', hF']
        · unfold Prog.drive at h
          rw [hF'] at h
          cases h
      | ok y =>
        obtain ⟨q, fs1⟩ := y
        cases q with
        | pending a b =>
          have e1 : ∀ {β : Type} (post : Except Err KeyValueData → Prog β) (sc : List Bool),
              (Prog.drive post (rd :: sc) fs).flaky F s = (Prog.drive post sc fs1).flaky F1 u := by
            intro β post sc
            conv => lhs; unfold Prog.drive
            rw [hF']
          rcases ih fs1 F1 u with ⟨h1, h2⟩ | ⟨before, xs, e, fin, t, h1, h2, h3, h4⟩
          · exact .inl ⟨by rw [e1, e1, h1], fun r t h => h2 r t (by rw [← h, e1])⟩
          · exact .inr ⟨rd :: before, xs, e, fin, t, by rw [e1, h1], h2, h3, by rw [e1, h4]⟩
        | ready item w =>
          cases item with
          | none =>
            refine .inl ⟨?_, fun r t h => ?_⟩
            · unfold Prog.drive
              rw [hF', hF']
              rfl
            · unfold Prog.drive at h
              rw [hF'] at h
              cases h
              simp
          | some it =>
            obtain ⟨y, a⟩ := it
            have e1 : ∀ {β : Type} (post : Except Err KeyValueData → Prog β) (sc : List Bool),
                (Prog.drive post (rd :: sc) fs).flaky F s =
                  (post y >>= fun x => Prog.drive post sc fs1 >>= fun z => Pure.pure (x :: z.1, z.2)).flaky F1 u := by
              intro β post sc
              conv => lhs; unfold Prog.drive
              rw [hF']
            have e2 : ∀ {β : Type} (post : Except Err KeyValueData → Prog β) (x : β) (sc : List Bool), post y = Pure.pure x →
                (Prog.drive post (rd :: sc) fs).flaky F s = match (Prog.drive post sc fs1).flaky F1 u with
                  | (.ok r, t) => (.ok (x :: r.1, r.2), t)
                  | (.error e, t) => (.error e, t) := by
              intro β post x sc hx
              rw [e1, hx]
              show (Prog.drive post sc fs1 >>= fun z => Pure.pure (x :: z.1, z.2)).flaky F1 u = _
              obtain ⟨F2, hF2⟩ := flaky_bind (Prog.drive post sc fs1) F1 u
              rw [hF2]
              rcases (Prog.drive post sc fs1).flaky F1 u with ⟨_ | _, _⟩ <;> rfl
            by_cases hy : p.tooShort y
            · obtain ⟨e, rfl, hlt⟩ := hy
              refine .inr ⟨[rd], [], e, some fs1, u, ?_, by simp, hlt, ?_⟩
              · rw [e2 _ (.ok e) [] rfl]; rfl
              · rw [e1, Prog.strip_short hlt]; rfl
            · have a1 := e2 (Prog.strip p) (p.cutItem y) rs (Prog.strip_long hy)
              have a2 := fun sc => e2 (Pure.pure : _ → Prog _) y sc rfl
              rcases ih fs1 F1 u with ⟨h1, h2⟩ | ⟨before, xs, e, fin, t, h1, h2, h3, h4⟩
              · refine .inl ⟨?_, fun r t h => ?_⟩
                · rw [a1, a2, h1]
                  rcases (Prog.drive (Pure.pure : _ → Prog (Except Err KeyValueData)) rs fs1).flaky F1 u with ⟨_ | _, _⟩ <;> rfl
                · rw [a2] at h
                  cases hd : (Prog.drive (Pure.pure : _ → Prog (Except Err KeyValueData)) rs fs1).flaky F1 u with
                  | mk o v =>
                    rw [hd] at h
                    cases o with
                    | error e => cases h
                    | ok z =>
                      cases h
                      intro x hx
                      rcases List.mem_cons.mp hx with rfl | hx
                      · exact hy
                      · exact h2 z _ hd x hx
              · refine .inr ⟨rd :: before, y :: xs, e, fin, t, ?_, ?_, h3, ?_⟩
                · rw [a2, h1]; rfl
                · intro x hx
                  rcases List.mem_cons.mp hx with rfl | hx
                  · exact hy
                  · exact h2 x hx
                · rw [a1, h4]

/-- A traversal of a sub-database with failing reads. -/
theorem subTraverse_flakes {s : St} {H : Nat} {n : T} (ht : TreeAt s.core H n) (hw : SWF s) (hc : Coh s (· ∈ n.refs))
    (p : Prefixed) {b : TraverseConfigBuilder} {conf : TraverseConfig} (hb : b.build = .ok conf)
    (hS : (p.boundedConf conf).Sound) (sched : List Bool) (F : List (Option Fault)) :
    Ext s ((Prog.subTraverse p b sched).flaky F s).2 ∧
    let all := (listing s.core (p.boundedConf conf) n).map (kvOf s.core)
    ((∃ e, ReadErr e ∧ ((Prog.subTraverse p b sched).flaky F s).1 = .error e) ∨
      (∃ ys fin rest, ((Prog.subTraverse p b sched).flaky F s).1 = .ok (ys.map p.cutItem, fin) ∧ Account ys all rest ∧
        (∀ e, .error e ∈ ys → Skipped e ∨ Broken e) ∧ (∀ y ∈ ys, ¬ p.tooShort y) ∧ (fin = true → rest = [])) ∨
      (∃ ys e rest, ((Prog.subTraverse p b sched).flaky F s).1 = .error (.panic "prefixed.rs:171 key.drain(..len_drain)") ∧
        Account (ys ++ [.ok e]) all rest ∧ (∀ e, .error e ∈ ys → Skipped e ∨ Broken e) ∧ (∀ y ∈ ys, ¬ p.tooShort y) ∧
        e.key.length < p.len) ∨
      ((Prog.subTraverse p b sched).flaky F s).1 = .error resumed) := by
  obtain ⟨fs, s1, h1, e1, hst⟩ := traverse_run ht hw hc (p.boundedConf conf)
  have hdo : (Prog.traverse (p.boundedConf conf)).run s = (.ok fs, s1) := by rw [does_traverse]; exact h1
  obtain ⟨F1, hF1⟩ := flaky_bind (Prog.traverse (p.boundedConf conf)) F s
  have hses : (Prog.subTraverse p b sched).flaky F s = match (Prog.traverse (p.boundedConf conf)).flaky F s with
      | (.ok a, t) => (Prog.drive (Prog.strip p) sched a >>= fun r => Pure.pure (r.1, r.2.isNone)).flaky F1 t
      | (.error e, t) => (.error e, t) := by
    unfold Prog.subTraverse
    simp only [hb]
    rw [hF1]
    cases (Prog.traverse (p.boundedConf conf)).flaky F s with
    | mk o t => cases o <;> rfl
  rcases (frail_acts.traverse_ _ s fs s1 hw hdo).2 _ _ (flaky_flakes (Prog.traverse (p.boundedConf conf)) F s) with
    ⟨g1, g2⟩ | ⟨e, g1, g2, g3⟩
  · have hok : (Prog.traverse (p.boundedConf conf)).flaky F s = (.ok fs, s1) := by rw [← g1, ← g2]
    rw [hok] at hses
    have hses' : (Prog.subTraverse p b sched).flaky F s = match (Prog.drive (Prog.strip p) sched fs).flaky F1 s1 with
        | (.ok r, t) => (.ok (r.1, r.2.isNone), t)
        | (.error e, t) => (.error e, t) := by
      rw [hses]
      obtain ⟨F2, hF2⟩ := flaky_bind (Prog.drive (Prog.strip p) sched fs) F1 s1
      simp only [hF2]
      rcases (Prog.drive (Prog.strip p) sched fs).flaky F1 s1 with ⟨_ | _, _⟩ <;> rfl
    rw [hses']
    have hdf := fun sc => drive_flakes hS sc s1 fs _ _ e1.core hst e1.wf (flaky_flakes _ F1 s1)
    rcases drive_strip p sched fs F1 s1 with ⟨k1, k2⟩ | ⟨before, xs, e, fin, t, k1, k2, k3, k4⟩
    · rw [k1]
      obtain ⟨e2, h2⟩ := hdf sched
      cases hd : (Prog.drive (Pure.pure : _ → Prog (Except Err KeyValueData)) sched fs).flaky F1 s1 with
      | mk o t =>
        rw [hd] at e2 h2
        refine ⟨by cases o <;> exact e1.trans e2, ?_⟩
        rcases h2 with ⟨xs, fin, rest, h2, h3, h4, h5⟩ | h2
        · cases h2
          refine .inr (.inl ⟨xs, fin.isNone, rest.map (kvOf s.core), rfl, h3, h4, k2 _ t hd, ?_⟩)
          intro hfin
          cases fin with
          | none => rw [show rest = [] from h5]; rfl
          | some fs' => cases hfin
        · cases h2
          exact .inr (.inr (.inr rfl))
    · rw [k4]
      obtain ⟨e2, h2⟩ := hdf before
      rw [k1] at e2 h2
      refine ⟨e1.trans e2, .inr (.inr (.inl ?_))⟩
      rcases h2 with ⟨xs', fin', rest, h2, h3, h4, h5⟩ | h2
      · cases h2
        exact ⟨xs, e, rest.map (kvOf s.core), rfl, h3, fun e he => h4 e (List.mem_append_left _ he), k2, k3⟩
      · cases h2
  · have hok : (Prog.traverse (p.boundedConf conf)).flaky F s = (.error e, ((Prog.traverse (p.boundedConf conf)).flaky F s).2) := by
      rw [← g2]
    rw [hses, hok]
    exact ⟨g3, .inl ⟨e, g1, rfl⟩⟩

theorem noApp_subTraverse (p : Prefixed) (b : TraverseConfigBuilder) (sched : List Bool) :
    NoApp _ (Prog.subExec p (.traverse b sched)) := by
  refine NoApp.replyOf _ ?_
  unfold Prog.subTraverse
  cases b.build with
  | error e => trivial
  | ok conf =>
    dsimp only
    refine noApp_acts.bind (noApp_acts.traverse_ _) fun fs => noApp_acts.bind ?_ fun r => trivial
    refine noApp_acts.drive_ NoApp.tryResult (fun _ => (noApp_acts.readNode _).under _ _) (fun x => ?_) _ _
    cases x with
    | error e => trivial
    | ok x =>
      unfold Prog.strip
      dsimp only
      split <;> trivial

/-- Without a tree there is nothing to traverse. -/
theorem subTraverse_bare {s : St} (h : s.core.length ≤ 1) {p : Prefixed} {b : TraverseConfigBuilder} {conf : TraverseConfig}
    (hb : b.build = .ok conf) {sched : List Bool} (F : List (Option Fault)) :
    (Prog.subTraverse p b sched).flaky F s = (.error .noRoot, s) := by
  have hroot : ∀ {r t}, Flakes (Prog.getRoot false) s r t → r = .ok none ∧ t = s := by
    intro r t hf
    unfold Prog.getRoot at hf
    rcases hf.bind with ⟨v, u, k1, k2⟩ | ⟨e, k1, rfl⟩
    · have := noFetch_version.flakes k1
      rw [show Prog.version.run s = (.ok s.core.length, s) from rfl] at this
      cases this
      rw [if_pos h, if_neg (by simp)] at k2
      cases k2
      exact ⟨rfl, rfl⟩
    · have := noFetch_version.flakes k1
      rw [show Prog.version.run s = (.ok s.core.length, s) from rfl] at this
      cases this
  have key : ∀ {r t}, Flakes (Prog.subTraverse p b sched) s r t → r = .error .noRoot ∧ t = s := by
    intro r t hf
    unfold Prog.subTraverse Prog.traverse at hf
    simp only [hb] at hf
    rw [Prog.bind_bind] at hf
    rcases hf.bind with ⟨v, u, k1, k2⟩ | ⟨e, k1, rfl⟩
    · obtain ⟨k3, rfl⟩ := hroot k1
      cases k3
      cases k2
      exact ⟨rfl, rfl⟩
    · have := hroot k1
      simp at this
  have a := key (flaky_flakes _ F s)
  exact Prod.ext a.1 a.2

end Hyperbee
