import Verif.Proof.Steps
/-!
# Counting the steps of whole calls
-/

namespace Hyperbee

theorem get_steps {s : St} {H : Nat} {t : T} (ht : TreeAt s.core H t) (hw : SWF s) (hc : Coh s (· ∈ t.refs))
    (key : Bytes) : (Prog.get key).steps s ≤ 34 * H + 42 := by
  obtain ⟨a, s1, h1, e1, ha⟩ := getRoot_run ht hw false
  have ht1 : TreeAt s1.core H t := by rw [e1.core]; exact ht
  obtain ⟨m, a', i, fs, n, s2, h2, e2, hf⟩ := nearestNode_run (.finite key) ht1 e1.wf (e1.coh hw hc) ha
  have c2 := nearestNode_steps (.finite key) ⟨ht1.rep, e1.coh hw hc, ht1.good.shape, ht1.srt, ht1.dfd⟩ ht1.good e1.wf ha
  have : TakesAt s (4 + ((34 * H + 31) + 7)) Anything (Prog.get key) := by
    unfold Prog.get
    refine TakesAt.bind_ok (does_getRoot false) h1 (takes_getRoot false s).1 ?_
    dsimp only
    refine TakesAt.bind_ok (does_nearestNode a _) h2 c2 ?_
    dsimp only
    split
    · refine ((Takes.orPanic_any _ _).cases_any (b := 7) fun x => ?_).le (by omega) s2
      obtain ⟨x, j⟩ := x
      exact (takes_getKeyValue _ _).cases_any (b := 0) fun kv => Takes.pure trivial
    · exact (Takes.pure trivial).le (by omega) s2
  have := this.1
  omega

theorem path_le {c : Core} {io : Io} {s : St} {H : Nat} {t n : T} {a i : Nat} {fs : List Fr} {key : LimitValue} {m : Option Nat}
    (hg : GoodN true H t) (hf : Found s key t m a i fs n) : fs.length ≤ H := by
  obtain ⟨k, hk, _⟩ := CtxGood.unplug (fun f hf' => (hf.frs f hf').1) (hf.plug ▸ hg)
  omega

theorem putCas_steps {s : St} {H : Nat} {t : T} (ht : TreeAt s.core H t) (hw : SWF s) (hc : Coh s (· ∈ t.refs))
    (key : Bytes) (value : Option Bytes) (cas : Option KeyValueData → KeyValueData → Bool) :
    TakesAt s (47 * H + 64) Anything (Prog.putCompareAndSwap key value cas) := by
  obtain ⟨a, s1, h1, e1, ha⟩ := getRoot_run ht hw true
  have ht1 : TreeAt s1.core H t := by rw [e1.core]; exact ht
  obtain ⟨m, a', i, fs, n, s2, h2, e2, hf⟩ := nearestNode_run (.finite key) ht1 e1.wf (e1.coh hw hc) ha
  have c2 := nearestNode_steps (.finite key) ⟨ht1.rep, e1.coh hw hc, ht1.good.shape, ht1.srt, ht1.dfd⟩ ht1.good e1.wf ha
  have hl : fs.length ≤ H := path_le (c := s.core) (io := s.io) ht.good hf
  have hjp : ∀ kv : Option KeyValueData, Takes (5 * H + 6) (Writes (2 * H + 3))
      (if cas kv ⟨s1.core.length, key, value⟩ = false then Pure.pure (.done (m, none))
      else do
        let ch ← Prog.putLoop m.isSome ((a', i) :: fs.map Fr.step) (Changes.new s1.core.length key value) s1.core.length []
        Pure.pure (.commit ch (m, some s1.core.length)) : Prog (Prepared (Option Nat × Option Nat))) := by
    intro kv
    split
    · exact (Takes.pure trivial).le (Nat.zero_le _)
    · refine ((takes_putLoop _ _ _ _ _).bind (b := 0) fun ch h => Takes.pure ?_).le
        (by simp only [List.length_cons, List.length_map]; omega)
      simp only [List.length_cons, List.length_map, Changes.new, List.length_nil] at h
      show ch.nodes.length ≤ _
      omega
  have hp : TakesAt s (4 + (1 + ((34 * H + 31) + (7 + (5 * H + 6))))) (Writes (2 * H + 3)) (Prog.putPrepare key value cas) := by
    unfold Prog.putPrepare
    refine TakesAt.bind_ok (does_getRoot true) h1 (takes_getRoot true s).1 ?_
    refine TakesAt.bind_ok Does.version (version_run s1) (Takes.version s1).1 ?_
    dsimp only
    refine TakesAt.bind_ok (does_nearestNode a _) h2 c2 ?_
    dsimp only
    split
    · refine ((Takes.orPanic_any _ _).cases_any (b := 7 + (5 * H + 6)) fun x => ?_).le (by omega) s2
      obtain ⟨x, j⟩ := x
      refine (takes_getKeyValue _ _).cases_any (b := 5 * H + 6) fun kv => ?_
      exact (Takes.bind (a := 0) (Takes.pure (P := Anything) trivial) fun x _ => hjp x).le (by omega)
    · exact (Takes.bind (a := 0) (Takes.pure (P := Anything) trivial) fun x _ => hjp x).le (by omega) s2
  unfold Prog.putCompareAndSwap
  exact (hp.bind fun p hp => takes_commit hp).le (by omega)

theorem put_steps {s : St} {b : Nat} (key : Bytes) (value : Option Bytes)
    (h : TakesAt s b Anything (Prog.putCompareAndSwap key value fun _ _ => true)) :
    (Prog.put key value).steps s ≤ b := by
  have : TakesAt s (b + 0) Anything (Prog.put key value) := by
    unfold Prog.put
    refine h.bind fun x _ => ?_
    obtain ⟨old, new⟩ := x
    exact (Takes.orPanic_any _ _).cases_any (b := 0) fun _ => Takes.pure trivial
  exact this.1

/-- Without a tree: the header, and a block with one node. -/
theorem putCas_steps_empty {s : St} (h1 : s.core.length ≤ 1) (key : Bytes) (value : Option Bytes)
    (cas : Option KeyValueData → KeyValueData → Bool) :
    TakesAt s 13 Anything (Prog.putCompareAndSwap key value cas) := by
  have hroot : TakesAt s 4 (· = none) (Prog.getRoot true) := by
    refine ⟨(takes_getRoot true s).1, ?_⟩
    rw [show (Prog.getRoot true).run = getRoot true from does_getRoot true]
    unfold getRoot
    rw [bind_ok (version_run s), if_pos h1]
    split
    · intro a ha
      rw [bind_run] at ha
      split at ha
      · cases ha; rfl
      · cases ha
    · intro a ha; cases ha; rfl
  have hp : TakesAt s (4 + (1 + 1)) (Writes 1) (Prog.putPrepare key value cas) := by
    unfold Prog.putPrepare
    refine hroot.bind fun r hr => ?_
    subst hr
    refine Takes.version.cases_any fun q => ?_
    dsimp only
    split
    · exact (Takes.pure trivial).le (Nat.zero_le _)
    · exact Takes.bind (b := 0) (takes_putLoop _ [] _ _ _) fun ch h => Takes.pure h
  unfold Prog.putCompareAndSwap
  exact (hp.bind fun p hp => takes_commit hp).le (by omega)

theorem replace_steps {s : St} {a i h : Nat} {ks : List Nat} {cs : List Child} {tl tr : T} (path : NodePath)
    (hw : SWF s) (hh : h ≤ s.core.length) (hheap : s.heap[a]? = some ⟨ks, cs⟩)
    (hl : cs[i]? = some tl.ref) (hr : cs[i + 1]? = some tr.ref) (vl : Vw s h tl) (vr : Vw s h tr)
    (gl : GoodN false h tl) (gr : GoodN false h tr) :
    TakesAt s (68 * h + 74) (fun p : NodePath => p.length ≤ h + path.length + 2) (Prog.replaceRemovedInternalKey path a i) := by
  obtain ⟨al, s1, g1, e1, hal⟩ := getChild_run (i := i) (r := tl.ref) hw hheap hl vl.rep.node
  obtain ⟨ml, ll, il, fl, nl, s2, g2, e2, _, hfl, hll⟩ := nearest_sub (.infinite .positive) (vl.ext hw e1) gl e1.wf
    (by rw [e1.core]; exact hh) hal
  have c2 := nearestNode_steps (.infinite .positive) (vl.ext hw e1) gl e1.wf hal
  have e12 := e1.trans e2
  obtain ⟨ar, s3, g3, e3, har⟩ := getChild_run (i := i + 1) (r := tr.ref) e2.wf (e12.get hheap) hr
    (by rw [e12.core]; exact vr.rep.node)
  obtain ⟨mr, lr, ir, fr, nr, s4, g4, e4, _, hfr, hlr⟩ := nearest_sub (.infinite .negative)
    (vr.ext hw (e12.trans e3)) gr e3.wf (by rw [(e12.trans e3).core]; exact hh) har
  have c4 := nearestNode_steps (.infinite .negative) (vr.ext hw (e12.trans e3)) gr e3.wf har
  obtain ⟨n2, hn2⟩ : ∃ n, s2.heap[ll]? = some n :=
    ⟨_, (vl.ext hw e12 |>.coh |> fun hc => (hfl.node (vl.ext hw e12).rep hc).1)⟩
  obtain ⟨n4, hn4⟩ : ∃ n, s4.heap[lr]? = some n :=
    ⟨_, ((vr.ext hw ((e12.trans e3).trans e4)).coh |> fun hc => (hfr.node (vr.ext hw ((e12.trans e3).trans e4)).rep hc).1)⟩
  have tail : ∀ (x : Nat × Nat × NodePath), x.2.2.length ≤ h + 1 →
      Takes 1 (fun p : NodePath => p.length ≤ h + path.length + 2) (do
        Prog.edit .write a fun n => do
          let ks ← Prog.need "del.rs:65 keys.insert" (vecInsert n.keys i x.2.1)
          Pure.pure ((), { n with keys := ks })
        Pure.pure (x.2.2 ++ (a, x.1) :: path) : Prog NodePath) := by
    intro x hx
    refine (Takes.edit _ _ _).cases_any (b := 0) fun _ => Takes.pure ?_
    simp only [List.length_append, List.length_cons]
    omega
  refine TakesAt.le (b := 4 + ((34 * h + 31) + (0 + (1 + (4 + ((34 * h + 31) + (0 + (1 + (1 + 1))))))))) ?_ (by omega)
  unfold Prog.replaceRemovedInternalKey
  dsimp only
  refine TakesAt.bind_ok (does_getChild a i) g1 (takes_getChild a i s).1 ?_
  refine TakesAt.bind_ok (does_nearestNode al _) g2 c2 ?_
  dsimp only
  refine TakesAt.bind_ok (Does.orPanic _ _) (by rw [List.head?_cons, orPanic_some]; rfl) ((Takes.orPanic_any _ _) s2).1 ?_
  dsimp only
  refine TakesAt.bind_ok (Does.readNode ll) (readNode_some hn2) (Takes.readNode ll s2).1 ?_
  refine TakesAt.bind_ok (does_getChild a (i + 1)) g3 (takes_getChild a (i + 1) s2).1 ?_
  refine TakesAt.bind_ok (does_nearestNode ar _) g4 c4 ?_
  dsimp only
  refine TakesAt.bind_ok (Does.orPanic _ _) (by rw [List.head?_cons, orPanic_some]; rfl) ((Takes.orPanic_any _ _) s4).1 ?_
  dsimp only
  refine TakesAt.bind_ok (Does.readNode lr) (readNode_some hn4) (Takes.readNode lr s4).1 ?_
  split
  · refine (Takes.edit _ _ _).cases_any (b := 1) (fun k => ?_) s4
    exact (Takes.bind (a := 0) (P := fun x : Nat × Nat × NodePath => x.2.2.length ≤ h + 1) (Takes.pure (by simpa using hlr))
      fun x hx => tail x hx).le (by omega)
  · refine (Takes.edit _ _ _).cases_any (b := 1) (fun k => ?_) s4
    exact (Takes.bind (a := 0) (P := fun x : Nat × Nat × NodePath => x.2.2.length ≤ h + 1) (Takes.pure (by simpa using hll))
      fun x hx => tail x hx).le (by omega)

theorem edit_runs {m : Mode} {a : Nat} {f : Node → Except Err (β × Node)} {s : St} {n n' : Node} {b : β}
    (hn : s.heap[a]? = some n) (hf : f n = .ok (b, n')) : Hyperbee.edit a f s = (.ok b, s.wr a n') := by
  unfold Hyperbee.edit
  rw [bind_ok (readNode_some hn)]
  simp only [hf]
  rw [bind_ok (writeNode_wr _ _ _)]
  rfl

theorem delCas_steps {s : St} {H : Nat} {t : T} (ht : TreeAt s.core H t) (hw : SWF s) (hc : Coh s (· ∈ t.refs))
    (key : Bytes) (cas : KeyValueData → Bool) :
    TakesAt s (174 * H + 63) Anything (Prog.delCompareAndSwap key cas) := by
  obtain ⟨a, s1, h1, e1, ha⟩ := getRoot_run ht hw false
  have ht1 : TreeAt s1.core H t := by rw [e1.core]; exact ht
  obtain ⟨m, a', i, fs, n, s2, h2, e2, hf⟩ := nearestNode_run (.finite key) ht1 e1.wf (e1.coh hw hc) ha
  have c2 := nearestNode_steps (.finite key) ⟨ht1.rep, e1.coh hw hc, ht1.good.shape, ht1.srt, ht1.dfd⟩ ht1.good e1.wf ha
  have e12 := e1.trans e2
  have hp : TakesAt s (4 + ((34 * H + 31) + (0 + (7 + (128 * H + 14))))) (Writes (3 * H + 1)) (Prog.delPrepare key cas) := by
    unfold Prog.delPrepare
    refine TakesAt.bind_ok (does_getRoot false) h1 (takes_getRoot false s).1 ?_
    dsimp only
    refine TakesAt.bind_ok (does_nearestNode a _) h2 c2 ?_
    cases m with
    | none => exact (Takes.pure trivial).le (Nat.zero_le _) s2
    | some q =>
      have ht2 : TreeAt s2.core H t := by rw [e12.core]; exact ht
      obtain ⟨ka, kb, pre, post, hk1, hk2, hloc, hfl⟩ := hf.loc ht2
      obtain ⟨hn, _, _⟩ := hf.node ht2.rep (e12.coh hw hc)
      obtain ⟨hq1, _⟩ := hf.hit q rfl
      obtain ⟨b, hb⟩ := ht2.dfd q (by rw [hloc.eq]; simp)
      obtain ⟨s3, h3, e3⟩ := getKeyValue_run e2.wf hn (i := i) (q := q) hq1 hb
      have e13 := e12.trans e3
      dsimp only
      refine TakesAt.bind_ok (Does.orPanic _ _) (by rw [List.head?_cons, orPanic_some]; rfl) ((Takes.orPanic_any _ _) s2).1 ?_
      dsimp only
      refine TakesAt.bind_ok (does_getKeyValue a' i) h3 (takes_getKeyValue a' i s2).1 ?_
      split
      · exact (Takes.pure trivial).le (Nat.zero_le _) s3
      · suffices hd : TakesAt s3 (128 * H + 14) (fun ch : Changes => ch.nodes.length ≤ 3 * H + 1)
            (Prog.delChanges key ((a', i) :: fs.map Fr.step)) from
          (hd.bind (b := 0) fun ch h => Takes.pure h).le (by omega)
        have hok : ∀ f ∈ fs, f.OK := fun f h => (hf.frs f h).1
        obtain ⟨h, hH, hctx, hgn⟩ := CtxGood.unplug hok (hf.plug ▸ ht.good)
        have hop : Op s.core s.io s3 (· ∈ t.refs) [] :=
          ⟨e13.core, e13.io, e13.wf, e13.coh hw hc, List.nodup_nil, by simp, by simp⟩
        obtain ⟨R, o1, o2, o3, o4, o5, o6, o7, _⟩ := node_own (fs := fs) (n := n) (a := a') hop
          (by rw [hf.plug]; exact ht.rep) (by rw [hf.plug]; exact ht.nodup)
          (by rw [hf.plug]; exact fun r hr => hr) (fun f h => e3.addr (hf.frs f h).2) (e3.addr hf.addr)
        rw [List.append_nil] at o1
        have hflat : t.flat = preC fs ++ n.flat ++ postC fs := by
          rw [← hf.plug, flat_plug hok]
        obtain ⟨r, ks, ts⟩ := n
        simp only [T.kids] at o3 o4 o6 hfl
        simp only [T.keys] at hk1
        simp only [Option.toList_some, List.append_assoc, List.singleton_append] at hk1
        subst hk1
        subst hk2
        have hnode : s3.heap[a']? = some ⟨ka ++ q :: kb, ts.map T.ref⟩ := o7
        have hgn' := goodN_mk.mp hgn
        have hlt := o1.lt a' (by simp)
        have hself : (s3.wr a' ⟨ka ++ kb, ts.map T.ref⟩).heap[a']? = some ⟨ka ++ kb, ts.map T.ref⟩ :=
          St.wr_self hlt _
        have hop1 : Op s.core s.io (s3.wr a' ⟨ka ++ kb, ts.map T.ref⟩) R (a' :: fs.map (·.a)) :=
          o1.write (by simp) _
        unfold Prog.delChanges
        refine TakesAt.le (b := 1 + (1 + (1 + (128 * H + 11)))) ?_ (by omega)
        refine TakesAt.bind_ok Does.version (version_run s3) (Takes.version s3).1 ?_
        dsimp only
        refine TakesAt.bind_ok (Does.lift _) (edit_runs (m := .write) (b := ()) (n' := ⟨ka ++ kb, ts.map T.ref⟩) hnode
          (by simp only [vecRemove_mid ka kb q]; rfl)) ((Takes.edit _ _ _) s3).1 ?_
        refine TakesAt.bind_ok (does_isLeaf a') (isLeaf_run hself) (takes_isLeaf a' _).1 ?_
        dsimp only
        by_cases hts0 : ts = []
        · subst hts0
          rw [if_pos (by simp)]
          refine TakesAt.mono (Takes.bind (a := 0) (P := fun p => p = (a', ka.length) :: fs.map Fr.step) (Takes.pure rfl)
            (fun p hp => ?_) _) (b := 0 + (60 * fs.length + 5)) (P := fun ch : Changes => ch.nodes.length ≤ 3 * fs.length + 1)
            (by omega) (fun ch h => by omega)
          subst hp
          refine Takes.mono (takes_delTail (Changes.new s3.core.length key none) (fs.map Fr.step) a') ?_ ?_
          · rw [List.length_map]; exact Nat.le_refl _
          · intro ch h
            simpa [Changes.new] using h
        · rw [if_neg (by simpa using hts0)]
          obtain ⟨h', rfl⟩ : ∃ h', h = h' + 1 := by
            cases h with
            | zero => exact absurd hgn'.2 hts0
            | succ h => exact ⟨h, rfl⟩
          have hklen := hgn'.2.1
          obtain ⟨A, tl, tr, B, hts, hA, hB⟩ : ∃ A tl tr B, ts = A ++ tl :: tr :: B ∧
              A.length = ka.length ∧ B.length = kb.length := by
            have hl : ts.length = ka.length + kb.length + 2 := by rw [hklen]; simp; omega
            refine ⟨ts.take ka.length, ts[ka.length]'(by omega), ts[ka.length + 1]'(by omega),
              ts.drop (ka.length + 2), ?_, by simp; omega, by simp; omega⟩
            rw [List.getElem_cons_drop (as := ts) (i := ka.length + 1), List.getElem_cons_drop,
              List.take_append_drop]
          subst hts
          have hflq : flatL (ka ++ q :: kb) (A ++ tl :: tr :: B) = flatL ka (A ++ [tl]) ++ q :: flatL kb (tr :: B) := by
            have := flatL_split (lks := ka) (lts := A ++ [tl]) (by simp [hA]) q kb (tr :: B)
            simpa using this
          have hsub : (flatL (ka ++ q :: kb) (A ++ tl :: tr :: B)).Sublist t.flat := by
            rw [hflat, T.flat]
            exact (List.sublist_append_right _ _).trans (List.sublist_append_left _ _)
          have hsubl : tl.flat.Sublist t.flat := by
            refine List.Sublist.trans ?_ hsub
            rw [hflq]
            have := flatL_hole (ka := ka) (kb := []) (A := A) (B := []) hA rfl tl
            rw [List.append_nil] at this
            rw [this]
            exact ((List.sublist_append_right _ _).trans (List.sublist_append_left _ _)).trans
              (List.sublist_append_left _ _)
          have hsubr : tr.flat.Sublist t.flat := by
            refine List.Sublist.trans ?_ hsub
            rw [hflq, flatL_post hB]
            exact ((List.sublist_append_left _ _).trans (List.sublist_cons_self _ _)).trans
              (List.sublist_append_right _ _)
          have hRl : ∀ x ∈ tl.refs, R x := fun x hx => o3 x (mem_refsL.mpr ⟨tl, by simp, hx⟩)
          have hRr : ∀ x ∈ tr.refs, R x := fun x hx => o3 x (mem_refsL.mpr ⟨tr, by simp, hx⟩)
          have hcore := hop1.core
          have gl : GoodN false h' tl := hgn'.2.2 tl (by simp)
          have gr : GoodN false h' tr := hgn'.2.2 tr (by simp)
          have hH' := ht.height_lt
          have hrep := replace_steps (h := h') (i := ka.length) (tl := tl) (tr := tr) (fs.map Fr.step) hop1.wf
            (by rw [hcore]; omega) hself (by simp [← hA]) (by simp [← hA])
            ⟨by rw [hcore]; exact o6 tl (by simp), hop1.coh.mono hRl, gl.shape,
              by rw [hcore]; exact List.Pairwise.sublist hsubl ht.srt,
              by rw [hcore]; exact fun x hx => ht.dfd x (hsubl.subset hx)⟩
            ⟨by rw [hcore]; exact o6 tr (by simp), hop1.coh.mono hRr, gr.shape,
              by rw [hcore]; exact List.Pairwise.sublist hsubr ht.srt,
              by rw [hcore]; exact fun x hx => ht.dfd x (hsubr.subset hx)⟩ gl gr
          rw [List.length_map] at hrep
          refine TakesAt.le (b := (68 * h' + 74) + (60 * (h' + fs.length + 1) + 5)) (TakesAt.bind hrep fun p hp => ?_) (by omega)
          cases p with
          | nil => exact (Takes.throw _).le (Nat.zero_le _)
          | cons x p =>
            obtain ⟨b', j⟩ := x
            rw [List.length_cons] at hp
            refine Takes.mono (takes_delTail (Changes.new s3.core.length key none) p b') (by omega) ?_
            intro ch h
            simp only [Changes.new, List.length_nil] at h
            omega
  unfold Prog.delCompareAndSwap
  exact (hp.bind fun p hp => takes_commit hp).le (by omega)

theorem del_steps {s : St} {b : Nat} (key : Bytes) (h : TakesAt s b Anything (Prog.delCompareAndSwap key fun _ => true)) :
    (Prog.del key).steps s ≤ b := by
  have : TakesAt s (b + 0) Anything (Prog.del key) := by
    unfold Prog.del
    refine h.bind fun x _ => ?_
    cases x with
    | none => exact Takes.pure trivial
    | some x =>
      obtain ⟨d, q⟩ := x
      dsimp only
      split
      · exact Takes.pure trivial
      · exact Takes.throw _
  exact this.1

/-- Without a tree lookups and deletions end at once. -/
theorem readers_steps_empty {s : St} (h1 : s.core.length ≤ 1) (key : Bytes) (cas : KeyValueData → Bool) :
    (Prog.get key).steps s ≤ 4 ∧ TakesAt s 4 Anything (Prog.delCompareAndSwap key cas) := by
  have hr : getRoot false s = (.ok none, s) := by
    rcases Nat.lt_or_ge s.core.length 1 with hl | hl
    · exact getRoot_zero_false (by omega)
    · exact getRoot_one (by omega) false
  constructor
  · have : TakesAt s (4 + 0) Anything (Prog.get key) := by
      unfold Prog.get
      exact TakesAt.bind_ok (does_getRoot false) hr (takes_getRoot false s).1 (Takes.pure trivial s)
    exact this.1
  · unfold Prog.delCompareAndSwap Prog.delPrepare
    refine TakesAt.le (b := 4 + 0 + 0) ?_ (by omega)
    refine TakesAt.bind (P := fun p => p = .done none) ?_ fun p hp => by subst hp; exact Takes.pure trivial
    exact TakesAt.bind_ok (does_getRoot false) hr (takes_getRoot false s).1
      (Takes.pure (P := fun p : Prepared (Option (Bool × Nat)) => p = .done none) rfl s)

end Hyperbee
