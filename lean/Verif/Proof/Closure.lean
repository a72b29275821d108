import Verif.SpecClosure
import Verif.Proof.Refine
/-!
# Running closures in the middle of a call
-/

namespace Hyperbee

theorem Db.Returns.calm {d : Db} {c : Cmd} {r : Reply} (h : d.Returns c r) (m : String) : r ≠ .error (.panic m) := by
  cases c with
  | traverse b sched =>
    simp only [Db.Returns] at h
    cases hb : b.build with
    | error e =>
      have : e = .traverseConfigBuilder := by
        unfold TraverseConfigBuilder.build at hb
        split at hb <;> cases hb
        rfl
      rw [hb] at h
      rw [h, this]; simp
    | ok conf =>
      rw [hb] at h
      simp only [] at h
      split at h
      · rw [h]; simp
      · obtain ⟨_, _, _, _, h, _⟩ := h
        rw [h]; simp
  | createHeader m =>
    simp only [Db.Returns] at h
    rw [h]
    split <;> simp
  | _ => rw [show r = _ from h]; simp

theorem Script.run_call {c : Cmd} {k : Reply → Script} {s : St} (h : ∀ m, (exec c s).1 ≠ .error (.panic m)) :
    (Script.call c k).run s = (k (exec c s).1).run (exec c s).2 := by
  rw [Script.run]
  show (match exec c s with
    | (.error (.panic m), s') => (.error (.panic m), s')
    | (r, s') => (k r).run s' : Except Err Bool × St) = _
  split
  · rename_i m s' e
    exact absurd (congrArg Prod.fst e) (h m)
  · rename_i e
    rw [e]

/-- What a closure's end makes of it. -/
def Outcome (o : Option Bool) : Except Err Bool :=
  match o with
  | none => .error (.panic "the closure")
  | some b => .ok b

/-- A closure runs as against the database shown. -/
theorem Script.plays : ∀ (sc : Script) {s : St} {d : Db}, Holds s d →
    ∃ o d', d.Plays sc o d' ∧ (sc.run s).1 = Outcome o ∧ Holds (sc.run s).2 d'
  | .answer b, s, d, h => ⟨some b, d, .answer d b, rfl, h⟩
  | .panics, s, d, h => ⟨none, d, .panics d, rfl, h⟩
  | .call c k, s, d, h => by
    obtain ⟨h1, h2⟩ := exec_refines h c
    rw [Script.run_call h1.calm]
    obtain ⟨o, d', h3, h4, h5⟩ := Script.plays (k (exec c s).1) h2
    exact ⟨o, d', .call h1 h3, h4, h5⟩

/-- A call that changes nothing only extends the cache. -/
theorem Cmd.Looks.ext {c : Cmd} (hc : c.Looks) {s : St} {d : Db} (h : Holds s d) : Ext s (exec c s).2 := by
  rcases hc with rfl | ⟨k, rfl⟩ | ⟨b, sched, rfl⟩
  · exact Ext.refl h.wf
  · obtain ⟨s', h1, e⟩ := get_holds h k
    simp only [exec, replyOf, h1]
    exact e
  · simp only [exec, replyOf, traverseSession]
    cases hb : b.build with
    | error e => exact Ext.refl h.wf
    | ok conf =>
      have hS := build_sound hb
      simp only []
      rcases h.store with hbare | ⟨H, t, ht, hc, hcon⟩
      · rw [bind_error (collect_bare hbare sched conf)]
        exact Ext.refl h.wf
      · obtain ⟨xs, rest, fin, s', h1, e, hlist, hfin⟩ := collect_run ht h.wf hc hS sched
        rw [bind_ok h1]
        exact e

theorem Cmd.Looks.next {c : Cmd} (hc : c.Looks) (d : Db) : d.next c = d := by
  rcases hc with rfl | ⟨k, rfl⟩ | ⟨b, sched, rfl⟩ <;> rfl

theorem Script.looks : ∀ (sc : Script), sc.All Cmd.Looks → ∀ {s : St} {d : Db}, Holds s d → Ext s (sc.run s).2
  | .answer b, _, s, d, h => Ext.refl h.wf
  | .panics, _, s, d, h => Ext.refl h.wf
  | .call c k, hsc, s, d, h => by
    obtain ⟨h1, h2⟩ := exec_refines h c
    rw [Script.run_call h1.calm]
    exact (hsc.1.ext h).trans (Script.looks _ (hsc.2 _) h2)

theorem Db.Plays.looks {d d' : Db} {sc : Script} {o : Option Bool} (h : d.Plays sc o d') (hsc : sc.All Cmd.Looks) :
    d' = d := by
  induction h with
  | answer => rfl
  | panics => rfl
  | call h1 h2 ih => rw [ih (hsc.2 _), hsc.1.next]

/-! ## Putting -/

/-- The beginning of a put on a handle with a tree, up to the closure; and the rest of it, if the
closure has only looked. -/
theorem putBy_tree {s : St} {H : Nat} {t : T} (ht : TreeAt s.core H t) (hw : SWF s)
    (hc : Coh s (· ∈ t.refs)) (hio : s.io.appendOk = true) (key : Bytes) (value : Option Bytes)
    (cas : Option KeyValueData → KeyValueData → Script) :
    ∃ m pre post s3, Loc s.core key t.flat m pre post ∧ Ext s s3 ∧
      let sc := cas (m.map fun q => ⟨q, keyOf s.core q, valOf s.core q⟩) ⟨s.core.length, key, value⟩
      (∀ e, (sc.run s3).1 = .error e → putCompareAndSwapBy key value cas s = (.error e, (sc.run s3).2)) ∧
      ((sc.run s3).1 = .ok false → putCompareAndSwapBy key value cas s = (.ok (m, none), (sc.run s3).2)) ∧
      ((sc.run s3).1 = .ok true → Ext s3 (sc.run s3).2 → ∃ H' t' s',
        putCompareAndSwapBy key value cas s = (.ok (m, some s.core.length), s') ∧
          Wrote s.core s.io key value (· ∈ t.refs) s' H' t' (pre ++ s.core.length :: post)
            (2 * (H + 1) + 1)) := by
  obtain ⟨a, s1, h1, e1, ha⟩ := getRoot_run ht hw true
  obtain ⟨m, a', i, fs, n, s2, h2, e2, hf⟩ := nearestNode_run (.finite key) (s := s1) (a := a)
    (by rw [e1.core]; exact ht) e1.wf (e1.coh hw hc) ha
  have e12 := e1.trans e2
  have ht2 : TreeAt s2.core H t := by rw [e12.core]; exact ht
  obtain ⟨ka, kb, pre, post, hk1, hk2, hloc, hfl⟩ := hf.loc ht2
  rw [e12.core] at hloc
  obtain ⟨s3, hpre, e3⟩ : ∃ s3, putPrepareBy key value cas s
      = (do
          let ok ← (cas (m.map fun q => ⟨q, keyOf s.core q, valOf s.core q⟩) ⟨s.core.length, key, value⟩).run
          if ok = false then pure (.done (m, none))
          else do
            let ch ← putLoop m.isSome ((a', i) :: fs.map Fr.step) (Changes.new s.core.length key value)
              s.core.length []
            pure (.commit ch (m, some s.core.length)) : M (Prepared (Option Nat × Option Nat))) s3 ∧
      Ext s2 s3 := by
    unfold putPrepareBy
    rw [bind_ok h1, bind_ok (version_run s1), e1.core]
    simp only []
    rw [bind_ok h2]
    cases m with
    | none => exact ⟨s2, rfl, Ext.refl e2.wf⟩
    | some q =>
      obtain ⟨hn, _, _⟩ := hf.node ht2.rep (e12.coh hw hc)
      obtain ⟨hq1, _⟩ := hf.hit q rfl
      obtain ⟨b, hb⟩ := ht2.dfd q (by rw [e12.core] at *; rw [hloc.eq]; simp)
      obtain ⟨s3, h3, e3⟩ := getKeyValue_run e2.wf hn (i := i) (q := q) hq1 hb
      refine ⟨s3, ?_, e3⟩
      simp only [Option.isSome_some, if_true, List.head?_cons, orPanic_some, pure_bind_run]
      rw [bind_ok h3]
      simp only [e12.core, pure_bind_run, Option.map_some]
  refine ⟨m, pre, post, s3, hloc, e12.trans e3, ?_⟩
  intro sc
  refine ⟨fun e he => ?_, fun he => ?_, fun he ex => ?_⟩
  · have hr : sc.run s3 = (.error e, (sc.run s3).2) := by rw [← he]
    unfold putCompareAndSwapBy
    rw [bind_error (hpre.trans (bind_error hr))]
  · have hr : sc.run s3 = (.ok false, (sc.run s3).2) := by rw [← he]
    unfold putCompareAndSwapBy
    rw [bind_ok (hpre.trans (bind_ok hr))]
    rfl
  · have hr : sc.run s3 = (.ok true, (sc.run s3).2) := by rw [← he]
    obtain ⟨ch, H', s', p1, p2, p3⟩ := putLoop_found ht hw hc value e12 hf (e3.trans ex) hk1 hk2 hfl
    have hc1 : 1 ≤ s.core.length := by have := ht.two; omega
    obtain ⟨f1, f2, f3⟩ := put_facts (value := value) hloc ht.srt ht.dfd ht.pos hc1
    obtain ⟨s'', t', h6, h7⟩ := commit_prep p2 hio hc1 f1 f2 f3
    refine ⟨H', t', s'', ?_, h7⟩
    have : putPrepareBy key value cas s = (.ok (.commit ch (m, some s.core.length)), s') := by
      rw [hpre, bind_ok hr, if_neg (by simp), bind_ok p1]; rfl
    unfold putCompareAndSwapBy
    rw [bind_ok this]
    simp only [commitPrepared]
    rw [bind_ok h6]; rfl

/-- The same on a handle whose core has no tree yet. -/
theorem putBy_empty {s : St} (hlen : s.core.length ≤ 1) (hio : s.io.appendOk = true)
    (key : Bytes) (value : Option Bytes) (cas : Option KeyValueData → KeyValueData → Script) :
    let sc := cas none ⟨1, key, value⟩
    (∀ e, (sc.run s.ready).1 = .error e → putCompareAndSwapBy key value cas s = (.error e, (sc.run s.ready).2)) ∧
    ((sc.run s.ready).1 = .ok false → putCompareAndSwapBy key value cas s = (.ok (none, none), (sc.run s.ready).2)) ∧
    ((sc.run s.ready).1 = .ok true → Ext s.ready (sc.run s.ready).2 → ∃ t' s',
      putCompareAndSwapBy key value cas s = (.ok (none, some 1), s') ∧
        Wrote s.ready.core s.io key value (fun _ => False) s' 0 t' [1] 1) := by
  intro sc
  have hroot : getRoot true s = (.ok none, s.ready) := by
    unfold St.ready
    split
    · rename_i h0; exact getRoot_zero h0 hio
    · exact getRoot_one (by omega) true
  have hl := St.ready_len hlen
  have hpre : putPrepareBy key value cas s
      = (do
          let ok ← sc.run
          if ok = false then pure (.done (none, none))
          else do
            let ch ← putLoop false [] (Changes.new 1 key value) 1 []
            pure (.commit ch (none, some 1)) : M (Prepared (Option Nat × Option Nat))) s.ready := by
    unfold putPrepareBy
    rw [bind_ok hroot, bind_ok (version_run _), hl]
  refine ⟨fun e he => ?_, fun he => ?_, fun he ex => ?_⟩
  · have hr : sc.run s.ready = (.error e, (sc.run s.ready).2) := by rw [← he]
    unfold putCompareAndSwapBy
    rw [bind_error (hpre.trans (bind_error hr))]
  · have hr : sc.run s.ready = (.ok false, (sc.run s.ready).2) := by rw [← he]
    unfold putCompareAndSwapBy
    rw [bind_ok (hpre.trans (bind_ok hr))]
    rfl
  · have hr : sc.run s.ready = (.ok true, (sc.run s.ready).2) := by rw [← he]
    have hioe : s.ready.io = s.io := by unfold St.ready; split <;> rfl
    obtain ⟨ch', s', Pv', t', p1, p2, p3, p4, p5, p6, p7⟩ := putNew_run (c := s.ready.core) (io := s.io)
      (R := fun _ => False) (sc.run s.ready).2 (Changes.new 1 key value) 1
      ⟨ex.core, ex.io.trans hioe, ex.wf, fun r hr => hr.elim, List.nodup_nil, by simp, by simp⟩ hl.symm rfl
    have h4 : Prep s.ready.core s.io key value (fun _ => False) s' ch' [1] 0 1 :=
      ⟨⟨_, Pv', t', p2, p5, p6, fun _ h => h, by omega⟩, p3, p4⟩
    have hloc : Loc s.ready.core key [] none [] [] := ⟨rfl, by simp, by simp, by simp⟩
    obtain ⟨f1, f2, f3⟩ := put_facts (value := value) hloc List.Pairwise.nil (by simp) (by simp) (by omega)
    rw [hl] at f1 f2 f3
    obtain ⟨s'', t'', h6, h7⟩ := commit_prep h4 hio (by omega) f1 f2 f3
    refine ⟨t'', s'', ?_, h7⟩
    have : putPrepareBy key value cas s = (.ok (.commit ch' (none, some 1)), s') := by
      rw [hpre, bind_ok hr, if_neg (by simp), bind_ok p1]; rfl
    unfold putCompareAndSwapBy
    rw [bind_ok this]
    simp only [commitPrepared]
    rw [bind_ok h6]; rfl

theorem Holds.ready {s : St} {d : Db} (h : Holds s d) (hb : Bare s.core d) : Holds s.ready d.withHeader := by
  have hl := St.ready_len hb.1
  refine ⟨St.ready_wf h.wf, ?_, ?_, .inl ⟨by omega, hb.2⟩⟩
  · unfold St.ready; split
    · exact h.ok
    · exact h.ok
  · simp [Db.withHeader, hb.nextSeq h.ver, hl]

/-- What a put whose closure makes calls does. -/
theorem putBy_holds {s : St} {d : Db} (h : Holds s d) (k : Bytes) (v : Option Bytes)
    (cas : Option KeyValueData → KeyValueData → Script) :
    ∃ o d', d.withHeader.Plays (cas (d.entry k) ⟨d.nextSeq, k, v⟩) o d' ∧
      (o = none → ∃ s', putCompareAndSwapBy k v cas s = (.error (.panic "the closure"), s') ∧ Holds s' d') ∧
      (o = some false → ∃ s', putCompareAndSwapBy k v cas s = (.ok ((d.map k).map (·.1), none), s') ∧ Holds s' d') ∧
      (o = some true → (cas (d.entry k) ⟨d.nextSeq, k, v⟩).All Cmd.Looks → ∃ s',
        putCompareAndSwapBy k v cas s = (.ok ((d.map k).map (·.1), some d.nextSeq), s') ∧ Holds s' (d.write k v)) := by
  rcases h.store with hb | ⟨H, t, ht, hc, hcon⟩
  · have hn := hb.nextSeq h.ver
    rw [hb.entry, hn, hb.2 k]
    have hr := h.ready hb
    obtain ⟨h1, h2, h3⟩ := putBy_empty hb.1 h.ok k v cas
    obtain ⟨o, d', p1, p2, p3⟩ := (cas none ⟨1, k, v⟩).plays hr
    refine ⟨o, d', p1, ?_, ?_, ?_⟩
    · rintro rfl; exact ⟨_, h1 _ p2, p3⟩
    · rintro rfl; exact ⟨_, h2 p2, p3⟩
    · rintro rfl hl
      obtain ⟨t', s', h4, w⟩ := h3 p2 (Script.looks _ hl hr)
      refine ⟨s', h4, ?_⟩
      have hl := St.ready_len hb.1
      have hloc : Loc s.ready.core k [] none [] [] := ⟨rfl, by simp, by simp, by simp⟩
      exact Wrote.holds_put (pre := []) (post := []) (by rw [hl]; exact w) h.ok (by rw [hn, hl])
        hb.contents hloc (by simp)
  · have hn : d.nextSeq = s.core.length := Db.nextSeq_tree h.ver (by have := ht.two; omega)
    have hdh : d.withHeader = d := by
      unfold Db.withHeader; rw [hn, ← h.ver]
    obtain ⟨m, pre, post, s3, hloc, e3, h1, h2, h3⟩ := putBy_tree ht h.wf hc h.ok k v cas
    rw [hn, hcon.entry hloc, hcon.seq hloc, hdh]
    obtain ⟨o, d', p1, p2, p3⟩ := Script.plays (cas (m.map fun q => ⟨q, keyOf s.core q, valOf s.core q⟩)
      ⟨s.core.length, k, v⟩) (h.ext e3)
    refine ⟨o, d', p1, ?_, ?_, ?_⟩
    · rintro rfl; exact ⟨_, h1 _ p2, p3⟩
    · rintro rfl; exact ⟨_, h2 p2, p3⟩
    · rintro rfl hl
      obtain ⟨H', t', s', h4, w⟩ := h3 p2 (Script.looks _ hl (h.ext e3))
      exact ⟨s', h4, w.holds_put h.ok hn hcon hloc ht.flat_lt⟩

/-! ## Deleting -/

theorem delBy_tree {s : St} {H : Nat} {t : T} (ht : TreeAt s.core H t) (hw : SWF s)
    (hc : Coh s (· ∈ t.refs)) (hio : s.io.appendOk = true) (key : Bytes) (cas : KeyValueData → Script) :
    ∃ m pre post s3, Loc s.core key t.flat m pre post ∧ Ext s s3 ∧
      (m = none → delCompareAndSwapBy key cas s = (.ok none, s3)) ∧
      ∀ q, m = some q → let sc := cas ⟨q, keyOf s.core q, valOf s.core q⟩
        (∀ e, (sc.run s3).1 = .error e → delCompareAndSwapBy key cas s = (.error e, (sc.run s3).2)) ∧
        ((sc.run s3).1 = .ok false → delCompareAndSwapBy key cas s = (.ok (some (false, q)), (sc.run s3).2)) ∧
        ((sc.run s3).1 = .ok true → Ext s3 (sc.run s3).2 → ∃ H' t' s',
          delCompareAndSwapBy key cas s = (.ok (some (true, q)), s') ∧
            Wrote s.core s.io key none (· ∈ t.refs) s' H' t' (pre ++ post) (H + 2)) := by
  obtain ⟨a, s1, h1, e1, ha⟩ := getRoot_run ht hw false
  obtain ⟨m, a', i, fs, n, s2, h2, e2, hf⟩ := nearestNode_run (.finite key) (s := s1) (a := a)
    (by rw [e1.core]; exact ht) e1.wf (e1.coh hw hc) ha
  have e12 := e1.trans e2
  have ht2 : TreeAt s2.core H t := by rw [e12.core]; exact ht
  obtain ⟨ka, kb, pre, post, hk1, hk2, hloc, hfl⟩ := hf.loc ht2
  rw [e12.core] at hloc
  cases m with
  | none =>
    refine ⟨none, pre, post, s2, hloc, e12, fun _ => ?_, by simp⟩
    have : delPrepareBy key cas s = (.ok (.done none), s2) := by
      unfold delPrepareBy
      rw [bind_ok h1]
      simp only []
      rw [bind_ok h2]
      rfl
    unfold delCompareAndSwapBy
    rw [bind_ok this]; rfl
  | some q =>
    obtain ⟨hn, _, _⟩ := hf.node ht2.rep (e12.coh hw hc)
    obtain ⟨hq1, _⟩ := hf.hit q rfl
    obtain ⟨b, hb⟩ := ht2.dfd q (by rw [hloc.eq]; simp)
    obtain ⟨s3, h3, e3⟩ := getKeyValue_run e2.wf hn (i := i) (q := q) hq1 hb
    have hpre : delPrepareBy key cas s
        = (do
            let ok ← (cas ⟨q, keyOf s.core q, valOf s.core q⟩).run
            if ok = false then pure (.done (some (false, q)))
            else do
              let ch ← delChanges key ((a', i) :: fs.map Fr.step)
              pure (.commit ch (some (true, q))) : M (Prepared (Option (Bool × Nat)))) s3 := by
      unfold delPrepareBy
      rw [bind_ok h1]
      simp only []
      rw [bind_ok h2]
      simp only [List.head?_cons, orPanic_some, pure_bind_run]
      rw [bind_ok h3]
      simp only [e12.core]
    refine ⟨some q, pre, post, s3, hloc, e12.trans e3, by simp, ?_⟩
    intro q' hq sc
    cases hq
    refine ⟨fun e he => ?_, fun he => ?_, fun he ex => ?_⟩
    · have hr : sc.run s3 = (.error e, (sc.run s3).2) := by rw [← he]
      unfold delCompareAndSwapBy
      rw [bind_error (hpre.trans (bind_error hr))]
    · have hr : sc.run s3 = (.ok false, (sc.run s3).2) := by rw [← he]
      unfold delCompareAndSwapBy
      rw [bind_ok (hpre.trans (bind_ok hr))]
      rfl
    · have hr : sc.run s3 = (.ok true, (sc.run s3).2) := by rw [← he]
      obtain ⟨ch, H', s', p1, p2, p3⟩ := delChanges_found ht hw hc e12 hf (e3.trans ex) hk1 hk2 hfl
      have hc1 : 1 ≤ s.core.length := by have := ht.two; omega
      obtain ⟨f1, f2, f3⟩ := del_facts (value := none) hloc ht.srt ht.dfd ht.pos
      obtain ⟨s'', t', h6, h7⟩ := commit_prep p2 hio hc1 f1 f2 f3
      refine ⟨H', t', s'', ?_, h7⟩
      have : delPrepareBy key cas s = (.ok (.commit ch (some (true, q))), s') := by
        rw [hpre, bind_ok hr, if_neg (by simp), bind_ok p1]; rfl
      unfold delCompareAndSwapBy
      rw [bind_ok this]
      simp only [commitPrepared]
      rw [bind_ok h6]; rfl

theorem delBy_empty {s : St} (hlen : s.core.length ≤ 1) (key : Bytes) (cas : KeyValueData → Script) :
    delCompareAndSwapBy key cas s = (.ok none, s) := by
  have hroot : getRoot false s = (.ok none, s) := by
    rcases Nat.lt_or_ge s.core.length 1 with h | h
    · exact getRoot_zero_false (by omega)
    · exact getRoot_one (by omega) false
  unfold delCompareAndSwapBy delPrepareBy
  rw [bind_run, bind_ok hroot]
  rfl

/-- What a deletion whose closure makes calls does. -/
theorem delBy_holds {s : St} {d : Db} (h : Holds s d) (k : Bytes) (cas : KeyValueData → Script) :
    (d.map k = none → ∃ s', delCompareAndSwapBy k cas s = (.ok none, s') ∧ Holds s' d) ∧
    ∀ x, d.entry k = some x → ∃ o d', d.Plays (cas x) o d' ∧
      (o = none → ∃ s', delCompareAndSwapBy k cas s = (.error (.panic "the closure"), s') ∧ Holds s' d') ∧
      (o = some false → ∃ s', delCompareAndSwapBy k cas s = (.ok (some (false, x.seq)), s') ∧ Holds s' d') ∧
      (o = some true → (cas x).All Cmd.Looks → ∃ s',
        delCompareAndSwapBy k cas s = (.ok (some (true, x.seq)), s') ∧ Holds s' (d.remove k)) := by
  rcases h.store with hb | ⟨H, t, ht, hc, hcon⟩
  · refine ⟨fun _ => ⟨s, delBy_empty hb.1 k cas, h⟩, fun x hx => ?_⟩
    rw [hb.entry] at hx
    cases hx
  · obtain ⟨m, pre, post, s3, hloc, e3, h0, h1⟩ := delBy_tree ht h.wf hc h.ok k cas
    have hent := hcon.entry hloc
    constructor
    · intro hk
      have hm : m = none := by
        cases m with
        | none => rfl
        | some q => simp [Db.entry, hk] at hent
      exact ⟨s3, h0 hm, h.ext e3⟩
    · intro x hx
      rw [hx] at hent
      cases m with
      | none => simp at hent
      | some q =>
        simp only [Option.map_some, Option.some.injEq] at hent
        obtain ⟨h2, h3, h4⟩ := h1 q rfl
        rw [← hent] at h2 h3 h4
        obtain ⟨o, d', p1, p2, p3⟩ := Script.plays (cas x) (h.ext e3)
        have hq : q = x.seq := by rw [hent]
        refine ⟨o, d', p1, ?_, ?_, ?_⟩
        · rintro rfl; exact ⟨_, h2 _ p2, p3⟩
        · rintro rfl; rw [← hq]; exact ⟨_, h3 p2, p3⟩
        · rintro rfl hl
          obtain ⟨H', t', s', h5, w⟩ := h4 p2 (Script.looks _ hl (h.ext e3))
          rw [← hq]
          exact ⟨s', h5, w.holds_del h.ok h.ver hcon hloc ht.flat_lt⟩

end Hyperbee
