import Verif.Proof.PutTop
/-!
# `put_compare_and_swap` from start to end
-/

namespace Hyperbee

theorem FrH.mono {c : List Bytes} {R R' : Child → Prop} {s : St} {f : Fr} (h : FrH c R s f)
    (hR : ∀ r ∈ refsL f.A ++ refsL f.B, R r → R' r) : FrH c R' s f := by
  obtain ⟨h1, h2, h3⟩ := h
  refine ⟨h1, fun t ht => ⟨(h2 t ht).1, fun r hr => hR r ?_ ((h2 t ht).2 r hr)⟩,
    fun t ht => ⟨(h3 t ht).1, fun r hr => hR r ?_ ((h3 t ht).2 r hr)⟩⟩
  · exact List.mem_append.mpr (.inl (mem_refsL.mpr ⟨t, ht, hr⟩))
  · exact List.mem_append.mpr (.inr (mem_refsL.mpr ⟨t, ht, hr⟩))

/-- Take ownership of a node reached from the root, and of the path to it. -/
theorem node_own {c : List Bytes} {io : Io} {s : St} {fs : List Fr} {R : Child → Prop} {n : T} {a : Nat}
    {as : List Nat} (hop : Op c io s R as) (hrep : Rep (nodeAt c) (plug fs n))
    (hnd : (plug fs n).refs.Nodup)
    (hR : ∀ r ∈ (plug fs n).refs, R r) (haddr : ∀ f ∈ fs, addrOf s f.ref = some f.a)
    (ha : addrOf s n.ref = some a) :
    ∃ R', Op c io s R' (a :: (fs.map (·.a) ++ as)) ∧ (∀ f ∈ fs, FrH c R' s f) ∧
      (∀ r ∈ refsL n.kids, R' r) ∧ (refsL n.kids ++ ctxRefs fs).Nodup ∧ (∀ r, R' r → R r) ∧
      (∀ t ∈ n.kids, Rep (nodeAt c) t) ∧ s.heap[a]? = some n.node ∧
      (∀ r, R r → r ∉ (plug fs n).refs → R' r) := by
  obtain ⟨R1, h1, h2, h3, h4, h5, h6, h7⟩ := ctx_own fs R n as hop hrep hnd hR haddr
  have hR1 := h3 _ (T.ref_mem_refs n)
  have hn : s.heap[a]? = some n.node := by rw [h1.coh _ hR1 a ha, h1.core]; exact h6.node
  have hin : n.ref ∈ (plug fs n).refs := plug_refs (T.ref_mem_refs n)
  obtain ⟨r, ks, ts⟩ := n
  simp only [T.refs, List.cons_append, List.nodup_cons, List.mem_append, not_or] at h4
  obtain ⟨⟨hn1, hn2⟩, hn3⟩ := h4
  refine ⟨fun r' => R1 r' ∧ r' ≠ r, h1.take hR1 ha, ?_, ?_, hn3, fun r hr => h5 r hr.1, h6.kids, hn, ?_⟩
  · intro f hf
    refine (h2 f hf).mono fun r' hr' h => ⟨h, ?_⟩
    rintro rfl
    exact hn2 (ctxRefs_mem hf _ hr')
  · intro r' hr'
    refine ⟨h3 r' (by simp only [T.refs, List.mem_cons]; exact .inr hr'), ?_⟩
    rintro rfl
    exact hn1 hr'
  · intro r' h hr'
    refine ⟨h7 r' h hr', ?_⟩
    rintro rfl
    exact hr' hin

/-- What a write has prepared, relative to the old core and the references of the old tree. -/
structure Prep (c : List Bytes) (io : Io) (key : Bytes) (value : Option Bytes) (old : Child → Prop)
    (s : St) (ch : Changes) (flat : List Nat) (H maxNodes : Nat) : Prop where
  ex : ∃ R Pv t, Done c io s ch R Pv t ∧ GoodN true H t ∧ t.flat = flat ∧ (∀ r, R r → old r) ∧
    Pv.length ≤ maxNodes
  key : ch.key = key
  value : ch.value = value

/-- Inserting a key at the place a search has found, some reads later. -/
theorem putLoop_found {s s2 s3 : St} {H : Nat} {t : T} (ht : TreeAt s.core H t) (hw : SWF s)
    (hc : Coh s (· ∈ t.refs)) {key : Bytes} (value : Option Bytes) {m : Option Nat} {a' i : Nat} {fs : List Fr}
    {n : T} (e12 : Ext s s2) (hf : Found s2 (.finite key) t m a' i fs n) (e3 : Ext s2 s3) {ka kb pre post : List Nat}
    (hk1 : n.keys = ka ++ m.toList ++ kb) (hk2 : ka.length = i)
    (hfl : ∀ q, preC fs ++ flatL (ka ++ q :: kb) n.kids ++ postC fs = pre ++ q :: post) :
    ∃ ch H' s', putLoop m.isSome ((a', i) :: fs.map Fr.step) (Changes.new s.core.length key value)
        s.core.length [] s3 = (.ok ch, s') ∧
      Prep s.core s.io key value (· ∈ t.refs) s' ch (pre ++ s.core.length :: post) H' (2 * (H + 1) + 1) ∧
      H' ≤ H + 1 := by
  have e13 := e12.trans e3
  have hok : ∀ f ∈ fs, f.OK := fun f h => (hf.frs f h).1
  obtain ⟨h, hH, hctx, hgn⟩ := CtxGood.unplug hok (hf.plug ▸ ht.good)
  have hop : Op s.core s.io s3 (· ∈ t.refs) [] :=
    ⟨e13.core, e13.io, e13.wf, e13.coh hw hc, List.nodup_nil, by simp, by simp⟩
  obtain ⟨R, o1, o2, o3, o4, o5, o6, o7, _⟩ := node_own (fs := fs) (n := n) (a := a') hop
    (by rw [hf.plug]; exact ht.rep) (by rw [hf.plug]; exact ht.nodup)
    (by rw [hf.plug]; exact fun r hr => hr) (fun f h => e3.addr (hf.frs f h).2) (e3.addr hf.addr)
  obtain ⟨r, ks, ts⟩ := n
  simp only [T.kids] at o3 o4 o6 hfl
  simp only [T.keys] at hk1
  rw [goodN_mk] at hgn
  have hnode : s3.heap[a']? = some ⟨ks, ts.map T.ref⟩ := o7
  have hfl' : preC fs ++ flatL (ka ++ s.core.length :: kb) ts ++ postC fs
      = pre ++ s.core.length :: post := hfl _
  cases m with
  | some q =>
    simp only [Option.toList_some, List.append_assoc, List.singleton_append] at hk1
    subst hk1
    obtain ⟨ch', s', Pv', t', p1, p2, p3, p4, p5, p6, p7⟩ := putHit_run (c := s.core) (io := s.io) (R := R) fs s3
      (Changes.new s.core.length key value) [] s.core.length q a' ka kb ts h
      (by simpa [Changes.new] using o1) rfl (PendH.nil _) hnode
      (fun t ht => (o6 t ht).old _) (fun r hr _ => o3 r hr) o2 hctx hgn.2 hgn.1 o4
    refine ⟨ch', h + fs.length, s', ?_, ?_, by omega⟩
    · simp only [Option.isSome_some]
      rw [← hk2, p1]
    · exact ⟨⟨R, Pv', t', p2, p5, by rw [p6, hfl'], o5, by rw [p7]; simp; omega⟩, p3, p4⟩
  | none =>
    simp only [Option.toList_none, List.append_nil] at hk1
    subst hk1
    obtain ⟨m1, _, _⟩ := hf.miss rfl
    simp only [T.kids] at m1
    subst m1
    have hh0 : h = 0 := by
      cases h with
      | zero => rfl
      | succ h => have := hgn.2.1; simp at this
    subst hh0
    obtain ⟨ch', s', Pv', t', H', p1, p2, p3, p4, p5, p6, p7, p8⟩ := putOpen_run (c := s.core) (io := s.io)
      (R := R) fs s3 (Changes.new s.core.length key value) [] s.core.length a' ka kb [] [] [] 0
      (by simpa [Changes.new] using o1) rfl (PendH.nil _) hnode (by simp [childrenInsert])
      (by simp) (by simp [refsL]) o2 hctx rfl (by simpa using hgn.1) o4
    refine ⟨ch', H', s', ?_, ?_, by omega⟩
    · simp only [Option.isSome_none]
      rw [← hk2, p1]
    · refine ⟨⟨R, Pv', t', p2, p5, by rw [p6, hfl'], o5, ?_⟩, p3, p4⟩
      simp only [List.length_nil, Nat.zero_add] at p7
      omega

/-- The keys of the tree after writing block number `v` for a key located by `pre`/`post`. -/
theorem putPrepare_tree {s : St} {H : Nat} {t : T} (ht : TreeAt s.core H t) (hw : SWF s)
    (hc : Coh s (· ∈ t.refs)) (key : Bytes) (value : Option Bytes)
    (cas : Option KeyValueData → KeyValueData → Bool) :
    ∃ m pre post s', Loc s.core key t.flat m pre post ∧
      (cas (m.map fun q => ⟨q, keyOf s.core q, valOf s.core q⟩) ⟨s.core.length, key, value⟩ = false →
        putPrepare key value cas s = (.ok (.done (m, none)), s') ∧ Ext s s') ∧
      (cas (m.map fun q => ⟨q, keyOf s.core q, valOf s.core q⟩) ⟨s.core.length, key, value⟩ = true →
        ∃ ch H', putPrepare key value cas s = (.ok (.commit ch (m, some s.core.length)), s') ∧
          Prep s.core s.io key value (· ∈ t.refs) s' ch (pre ++ s.core.length :: post) H' (2 * (H + 1) + 1) ∧
          H' ≤ H + 1) := by
  obtain ⟨a, s1, h1, e1, ha⟩ := getRoot_run ht hw true
  obtain ⟨m, a', i, fs, n, s2, h2, e2, hf⟩ := nearestNode_run (.finite key) (s := s1) (a := a)
    (by rw [e1.core]; exact ht) e1.wf (e1.coh hw hc) ha
  have e12 := e1.trans e2
  have ht2 : TreeAt s2.core H t := by rw [e12.core]; exact ht
  obtain ⟨ka, kb, pre, post, hk1, hk2, hloc, hfl⟩ := hf.loc ht2
  rw [e12.core] at hloc
  -- the old key's data
  obtain ⟨s3, hpre, e3⟩ : ∃ s3, putPrepare key value cas s
      = (if cas (m.map fun q => ⟨q, keyOf s.core q, valOf s.core q⟩) ⟨s.core.length, key, value⟩ = false
          then pure (.done (m, none))
          else do
            let ch ← putLoop m.isSome ((a', i) :: fs.map Fr.step) (Changes.new s.core.length key value)
              s.core.length []
            pure (.commit ch (m, some s.core.length)) : M (Prepared (Option Nat × Option Nat))) s3 ∧
      Ext s2 s3 := by
    unfold putPrepare
    rw [bind_ok h1, bind_ok (version_run s1), e1.core]
    simp only []
    rw [bind_ok h2]
    cases m with
    | none => exact ⟨s2, rfl, Ext.refl e2.wf⟩
    | some q =>
      obtain ⟨hn, _, _⟩ := hf.node ht2.rep (e12.coh hw hc)
      obtain ⟨hq1, _⟩ := hf.hit q rfl
      obtain ⟨b, hb⟩ := ht2.dfd q (by rw [e12.core] at *; rw [hloc.eq]; simp)
      obtain ⟨s3, h3, e3⟩ := getKeyValue_run e2.wf hn (i := i) (q := q) hq1 hb
      refine ⟨s3, ?_, e3⟩
      simp only [Option.isSome_some, if_true, List.head?_cons, orPanic_some, pure_bind_run]
      rw [bind_ok h3]
      simp only [e12.core, pure_bind_run, Option.map_some]
  have e13 := e12.trans e3
  cases hcas : cas (m.map fun q => ⟨q, keyOf s.core q, valOf s.core q⟩) ⟨s.core.length, key, value⟩ with
  | false =>
    refine ⟨m, pre, post, s3, hloc, fun _ => ⟨?_, e13⟩, fun h => absurd (hcas.symm.trans h) (by simp)⟩
    rw [hpre, if_pos hcas]; rfl
  | true =>
    rw [if_neg (by simp [hcas])] at hpre
    obtain ⟨ch, H', s', p1, p2, p3⟩ := putLoop_found ht hw hc value e12 hf e3 hk1 hk2 hfl
    refine ⟨m, pre, post, s', hloc, fun h => absurd (hcas.symm.trans h) (by simp), fun _ => ⟨ch, H', ?_, p2, p3⟩⟩
    rw [hpre, bind_ok p1]; rfl

/-! ## The first insertion -/

/-- The header block. -/
def headerBlock : Bytes := encodeHeader ⟨PROTOCOL, none⟩

theorem getRoot_one {s : St} (h : s.core.length = 1) (ens : Bool) : getRoot ens s = (.ok none, s) := by
  unfold getRoot
  rw [bind_ok (version_run s), if_pos (by omega), if_neg (by omega)]
  rfl

theorem getRoot_zero_false {s : St} (h : s.core.length = 0) : getRoot false s = (.ok none, s) := by
  unfold getRoot
  rw [bind_ok (version_run s), if_pos (by omega), if_neg (by simp)]
  rfl

/-- `s` with the header block appended. -/
def St.withHeader (s : St) : St := { s with core := s.core ++ [headerBlock] }

theorem getRoot_zero {s : St} (h : s.core.length = 0) (hio : s.io.appendOk = true) :
    getRoot true s = (.ok none, s.withHeader) := by
  unfold getRoot
  rw [bind_ok (version_run s), if_pos (by omega), if_pos ⟨h, rfl⟩]
  have h1 : createHeader none s = (.ok (s.core.length + 1), s.withHeader) := by
    unfold createHeader
    rw [bind_ok (version_run s), if_neg (by simp [h])]
    simp [coreAppend, hio, St.withHeader, headerBlock]
  have h2 : ensureHeader s = (.ok true, s.withHeader) := by
    unfold ensureHeader
    rw [h1]
  rw [bind_ok h2]
  rfl

/-- The state in which a put on a core without a tree starts its work. -/
def St.ready (s : St) : St := if s.core.length = 0 then s.withHeader else s

theorem SWF.noCache {s : St} (hw : SWF s) : ∀ q, s.core.length ≤ q → s.cache q = none := by
  intro q hq
  cases he : s.cache q with
  | none => rfl
  | some e =>
    obtain ⟨b, hb, _⟩ := hw.ent _ _ he
    have := blockAt_lt hb
    omega

theorem SWF.append {s : St} (hw : SWF s) (ext : List Bytes) : SWF { s with core := s.core ++ ext } := by
  refine ⟨hw.rd, ?_, hw.lt, hw.inj⟩
  intro q e he
  obtain ⟨b, hb, h⟩ := hw.ent q e he
  exact ⟨b, blockAt_append_some hb _, h⟩

theorem St.ready_wf {s : St} (hw : SWF s) : SWF s.ready := by
  unfold St.ready
  split
  · exact hw.append _
  · exact hw

theorem St.ready_len {s : St} (h : s.core.length ≤ 1) : s.ready.core.length = 1 := by
  unfold St.ready
  split
  · rename_i h0; simp [St.withHeader, h0]
  · omega

theorem putPrepare_empty {s : St} (hlen : s.core.length ≤ 1) (hw : SWF s) (hio : s.io.appendOk = true)
    (key : Bytes) (value : Option Bytes) (cas : Option KeyValueData → KeyValueData → Bool) :
    (cas none ⟨1, key, value⟩ = false →
      putPrepare key value cas s = (.ok (.done (none, none)), s.ready)) ∧
    (cas none ⟨1, key, value⟩ = true → ∃ ch s',
      putPrepare key value cas s = (.ok (.commit ch (none, some 1)), s') ∧
      Prep s.ready.core s.io key value (fun _ => False) s' ch [1] 0 1) := by
  have hroot : getRoot true s = (.ok none, s.ready) := by
    unfold St.ready
    split
    · rename_i h0; exact getRoot_zero h0 hio
    · exact getRoot_one (by omega) true
  have hl := St.ready_len hlen
  have hpre : putPrepare key value cas s
      = (if cas none ⟨1, key, value⟩ = false then pure (.done (none, none))
         else do
          let ch ← putLoop false [] (Changes.new 1 key value) 1 []
          pure (.commit ch (none, some 1)) : M (Prepared (Option Nat × Option Nat))) s.ready := by
    unfold putPrepare
    rw [bind_ok hroot, bind_ok (version_run _), hl]
  constructor
  · intro h; rw [hpre, if_pos h]; rfl
  · intro h
    rw [hpre, if_neg (by simp [h])]
    have hioe : s.ready.io = s.io := by unfold St.ready; split <;> rfl
    obtain ⟨ch', s', Pv', t', p1, p2, p3, p4, p5, p6, p7⟩ := putNew_run (c := s.ready.core) (io := s.io)
      (R := fun _ => False) s.ready (Changes.new 1 key value) 1
      ⟨rfl, hioe, St.ready_wf hw, fun r hr => hr.elim, List.nodup_nil, by simp, by simp⟩ hl.symm rfl
    rw [bind_ok p1]
    exact ⟨ch', s', rfl, ⟨_, Pv', t', p2, p5, p6, fun _ h => h, by omega⟩, p3, p4⟩

/-! ## Committing a write -/

/-- The state after a successful write of `key`. -/
structure Wrote (c : List Bytes) (io : Io) (key : Bytes) (value : Option Bytes) (old : Child → Prop)
    (s' : St) (H : Nat) (t' : T) (flat : List Nat) (maxNodes : Nat) : Prop where
  core : ∃ ns, s'.core = c ++ [encodeBlock key value ns] ∧ ns.length ≤ maxNodes ∧ 0 < ns.length ∧
    (∀ (i : Nat) (nd : Node), ns[i]? = some nd → ∀ r ∈ nd.children, r.seq < c.length ∨
        (r.seq = c.length ∧ i < r.offset ∧ r.offset < ns.length)) ∧ ns = t'.pre c.length
  io : s'.io = io
  wf : SWF s'
  coh : Coh s' (· ∈ t'.refs)
  tree : TreeAt s'.core H t'
  flat : t'.flat = flat
  live : ∀ r ∈ t'.refs, r.seq ≠ c.length → old r
  offs : t'.offs c.length = List.range (t'.pre c.length).length

theorem keyOf_new (c : List Bytes) (key : Bytes) (value : Option Bytes) (ns : List Node) :
    keyOf (c ++ [encodeBlock key value ns]) c.length = key := by
  simp [keyOf, blockAt_last, blockOf_encodeBlock]

theorem valOf_new (c : List Bytes) (key : Bytes) (value : Option Bytes) (ns : List Node) :
    valOf (c ++ [encodeBlock key value ns]) c.length = value := by
  simp [valOf, blockAt_last, blockOf_encodeBlock]

theorem Srt.append {c : List Bytes} {l : List Nat} (h : Srt c l) (hl : ∀ q ∈ l, q < c.length)
    (ext : List Bytes) : Srt (c ++ ext) l := by
  refine List.Pairwise.imp_of_mem ?_ h
  intro a b ha hb hab
  rw [keyOf_append (hl a ha), keyOf_append (hl b hb)]
  exact hab

theorem commit_prep {c : List Bytes} {io : Io} {key : Bytes} {value : Option Bytes} {old : Child → Prop}
    {s : St} {ch : Changes} {flat : List Nat} {H mx : Nat} (p : Prep c io key value old s ch flat H mx)
    (hio : io.appendOk = true) (hc1 : 1 ≤ c.length)
    (hsrt : ∀ ns, Srt (c ++ [encodeBlock key value ns]) flat)
    (hdfd : ∀ ns, ∀ q ∈ flat, ∃ b, blockAt (c ++ [encodeBlock key value ns]) q = some b)
    (hpos : ∀ q ∈ flat, 0 < q) :
    ∃ s' t', addChanges ch s = (.ok (c.length + 1), s') ∧ Wrote c io key value old s' H t' flat mx := by
  obtain ⟨R, Pv, t, d, hg, hfl, hold, hmx⟩ := p.ex
  obtain ⟨ns, s', t', c1, c2, c3, c4, c5, c6, c7, c8, c9, c10, c11, c12, c13, c14, c15, c16⟩ := commit_run d hio hg
  rw [p.key, p.value] at c2
  refine ⟨s', t', c1, ⟨ns, c2, by omega, c13, c14, c15⟩, c3, c4, c5, ?_, by rw [c10, hfl],
    fun r hr hne => hold r (c11 r hr hne), by rw [← c15]; exact c16⟩
  rw [c2] at c6 ⊢
  refine ⟨c6, c7, by simpa using c8, c9, ?_, ?_, by simp; omega, ?_⟩
  · rw [c10, hfl]; exact hsrt ns
  · rw [c10, hfl]; exact hdfd ns
  · rw [c10, hfl]; exact hpos

theorem put_facts {c : List Bytes} {key : Bytes} {value : Option Bytes} {l pre post : List Nat}
    {m : Option Nat} (hl : Loc c key l m pre post) (hs : Srt c l)
    (hd : ∀ q ∈ l, ∃ b, blockAt c q = some b) (hp : ∀ q ∈ l, 0 < q) (hc1 : 1 ≤ c.length) :
    (∀ ns, Srt (c ++ [encodeBlock key value ns]) (pre ++ c.length :: post)) ∧
    (∀ ns, ∀ q ∈ pre ++ c.length :: post, ∃ b, blockAt (c ++ [encodeBlock key value ns]) q = some b) ∧
    (∀ q ∈ pre ++ c.length :: post, 0 < q) := by
  have hpre : ∀ x ∈ pre, x ∈ l := fun x hx => by rw [hl.eq]; simp [hx]
  have hpost : ∀ x ∈ post, x ∈ l := fun x hx => by rw [hl.eq]; simp [hx]
  have hlt : ∀ x ∈ l, x < c.length := fun x hx => by
    obtain ⟨b, hb⟩ := hd x hx; exact blockAt_lt hb
  refine ⟨fun ns => ?_, fun ns q hq => ?_, fun q hq => ?_⟩
  · have h1 := hs.append hlt [encodeBlock key value ns]
    rw [hl.eq] at h1
    unfold Srt at h1 ⊢
    rw [List.pairwise_append, List.pairwise_append] at h1
    obtain ⟨⟨p1, _, _⟩, p2, p3⟩ := h1
    rw [List.pairwise_append, List.pairwise_cons]
    refine ⟨p1, ⟨fun x hx => ?_, p2⟩, fun x hx y hy => ?_⟩
    · rw [keyOf_new, keyOf_append (hlt x (hpost x hx))]; exact hl.gt x hx
    · rcases List.mem_cons.mp hy with e | hy
      · subst e; rw [keyOf_new, keyOf_append (hlt x (hpre x hx))]; exact hl.lt x hx
      · exact p3 x (by simp [hx]) y hy
  · rw [List.mem_append, List.mem_cons] at hq
    rcases hq with hq | e | hq
    · obtain ⟨b, hb⟩ := hd q (hpre q hq); exact ⟨b, blockAt_append_some hb _⟩
    · subst e; exact ⟨_, by rw [blockAt_last, blockOf_encodeBlock]⟩
    · obtain ⟨b, hb⟩ := hd q (hpost q hq); exact ⟨b, blockAt_append_some hb _⟩
  · rw [List.mem_append, List.mem_cons] at hq
    rcases hq with hq | e | hq
    · exact hp q (hpre q hq)
    · omega
    · exact hp q (hpost q hq)

theorem del_facts {c : List Bytes} {key : Bytes} {value : Option Bytes} {l pre post : List Nat}
    {m : Option Nat} (hl : Loc c key l m pre post) (hs : Srt c l)
    (hd : ∀ q ∈ l, ∃ b, blockAt c q = some b) (hp : ∀ q ∈ l, 0 < q) :
    (∀ ns, Srt (c ++ [encodeBlock key value ns]) (pre ++ post)) ∧
    (∀ ns, ∀ q ∈ pre ++ post, ∃ b, blockAt (c ++ [encodeBlock key value ns]) q = some b) ∧
    (∀ q ∈ pre ++ post, 0 < q) := by
  have hsub : (pre ++ post).Sublist l := by
    rw [hl.eq]
    exact List.Sublist.append (List.sublist_append_left _ _) (List.Sublist.refl _)
  have hlt : ∀ x ∈ l, x < c.length := fun x hx => by
    obtain ⟨b, hb⟩ := hd x hx; exact blockAt_lt hb
  refine ⟨fun ns => ?_, fun ns q hq => ?_, fun q hq => hp q (hsub.subset hq)⟩
  · exact List.Pairwise.sublist hsub (hs.append hlt _)
  · obtain ⟨b, hb⟩ := hd q (hsub.subset hq); exact ⟨b, blockAt_append_some hb _⟩

/-- `put_compare_and_swap` on a handle with a tree. -/
theorem putCAS_tree {s : St} {H : Nat} {t : T} (ht : TreeAt s.core H t) (hw : SWF s)
    (hc : Coh s (· ∈ t.refs)) (hio : s.io.appendOk = true) (key : Bytes) (value : Option Bytes)
    (cas : Option KeyValueData → KeyValueData → Bool) :
    ∃ m pre post s', Loc s.core key t.flat m pre post ∧
      (cas (m.map fun q => ⟨q, keyOf s.core q, valOf s.core q⟩) ⟨s.core.length, key, value⟩ = false →
        putCompareAndSwap key value cas s = (.ok (m, none), s') ∧ Ext s s') ∧
      (cas (m.map fun q => ⟨q, keyOf s.core q, valOf s.core q⟩) ⟨s.core.length, key, value⟩ = true →
        ∃ H' t', putCompareAndSwap key value cas s = (.ok (m, some s.core.length), s') ∧
          Wrote s.core s.io key value (· ∈ t.refs) s' H' t' (pre ++ s.core.length :: post)
            (2 * (H + 1) + 1) ∧ H' ≤ H + 1) := by
  obtain ⟨m, pre, post, s1, hloc, h1, h2⟩ := putPrepare_tree ht hw hc key value cas
  cases hcas : cas (m.map fun q => ⟨q, keyOf s.core q, valOf s.core q⟩) ⟨s.core.length, key, value⟩ with
  | false =>
    obtain ⟨h3, h4⟩ := h1 hcas
    refine ⟨m, pre, post, s1, hloc, fun _ => ⟨?_, h4⟩, fun h => absurd (hcas.symm.trans h) (by simp)⟩
    unfold putCompareAndSwap
    rw [bind_ok h3]; rfl
  | true =>
    obtain ⟨ch, H', h3, h4, h5⟩ := h2 hcas
    have hc1 : 1 ≤ s.core.length := by have := ht.two; omega
    obtain ⟨f1, f2, f3⟩ := put_facts (value := value) hloc ht.srt ht.dfd ht.pos hc1
    obtain ⟨s', t', h6, h7⟩ := commit_prep h4 hio hc1 f1 f2 f3
    refine ⟨m, pre, post, s', hloc, fun h => absurd (hcas.symm.trans h) (by simp), fun _ => ⟨H', t', ?_, h7, h5⟩⟩
    unfold putCompareAndSwap
    rw [bind_ok h3]
    simp only [commitPrepared]
    rw [bind_ok h6]; rfl

/-- `put_compare_and_swap` on a handle whose core has no tree yet. -/
theorem putCAS_empty {s : St} (hlen : s.core.length ≤ 1) (hw : SWF s) (hio : s.io.appendOk = true)
    (key : Bytes) (value : Option Bytes) (cas : Option KeyValueData → KeyValueData → Bool) :
    (cas none ⟨1, key, value⟩ = false →
      putCompareAndSwap key value cas s = (.ok (none, none), s.ready)) ∧
    (cas none ⟨1, key, value⟩ = true → ∃ s' t',
      putCompareAndSwap key value cas s = (.ok (none, some 1), s') ∧
      Wrote s.ready.core s.io key value (fun _ => False) s' 0 t' [1] 1) := by
  obtain ⟨h1, h2⟩ := putPrepare_empty hlen hw hio key value cas
  constructor
  · intro h
    unfold putCompareAndSwap
    rw [bind_ok (h1 h)]; rfl
  · intro h
    obtain ⟨ch, s1, h3, h4⟩ := h2 h
    have hl := St.ready_len hlen
    have hloc : Loc s.ready.core key [] none [] [] := ⟨rfl, by simp, by simp, by simp⟩
    obtain ⟨f1, f2, f3⟩ := put_facts (value := value) hloc List.Pairwise.nil (by simp) (by simp) (by omega)
    rw [hl] at f1 f2 f3
    obtain ⟨s', t', h6, h7⟩ := commit_prep h4 hio (by omega) f1 f2 f3
    refine ⟨s', t', ?_, h7⟩
    unfold putCompareAndSwap
    rw [bind_ok h3]
    simp only [commitPrepared]
    rw [bind_ok h6]; rfl

end Hyperbee
