import Verif.Proof.Del
/-!
# `del_compare_and_swap` from start to end
-/

namespace Hyperbee

/-- A new subtree `t`, the last node collected, waiting to be linked into the path `fs`. -/
structure Ready (c : List Bytes) (io : Io) (s : St) (ch : Changes) (R : Child → Prop)
    (Pv : List Node) (t : T) (fs : List Fr) (h : Nat) : Prop where
  op : Op c io s R (fs.map (·.a) ++ ch.nodes)
  seq : ch.seq = c.length
  pend : PendH s ch.nodes Pv
  rep : RepN c Pv t
  live : ∀ r ∈ t.refs, r.seq ≠ c.length → R r
  frs : ∀ f ∈ fs, FrH c R s f
  ctx : CtxGood h fs
  good : GoodN fs.isEmpty h t
  nodup : (t.refs ++ ctxRefs fs).Nodup
  ne : Pv ≠ []
  ref : t.ref = ⟨c.length, Pv.length - 1⟩

theorem GoodN.as_root {h : Nat} {t : T} (hg : GoodN false h t) : GoodN true h t := by
  obtain ⟨r, ks, ts⟩ := t
  rw [goodN_mk] at *
  obtain ⟨h1, h2⟩ := hg
  exact ⟨⟨h1.1, by simp, fun _ _ => by have := h1.2.1 rfl; omega⟩, h2⟩

/-- Add an owned node to the nodes collected. -/
theorem ready_add {c : List Bytes} {io : Io} {s : St} {R : Child → Prop} {ch : Changes}
    {Pv : List Node} {fs : List Fr} {h a : Nat} {ks : List Nat} {ts : List T}
    (hop : Op c io s R (a :: (fs.map (·.a) ++ ch.nodes))) (hseq : ch.seq = c.length)
    (hp : PendH s ch.nodes Pv) (hheap : s.heap[a]? = some ⟨ks, ts.map T.ref⟩)
    (hrep : ∀ t ∈ ts, RepN c Pv t) (hlive : ∀ r ∈ refsL ts, r.seq ≠ c.length → R r)
    (hfr : ∀ f ∈ fs, FrH c R s f) (hctx : CtxGood h fs) (hkids : Kids h ts ks.length)
    (hfill : Fill fs.isEmpty h ks.length) (hnd : (refsL ts ++ ctxRefs fs).Nodup) :
    ch.addNode a = ({ ch with nodes := ch.nodes ++ [a] }, ⟨c.length, Pv.length⟩) ∧
    Ready c io s { ch with nodes := ch.nodes ++ [a] } R (Pv ++ [⟨ks, ts.map T.ref⟩])
      (.mk ⟨c.length, Pv.length⟩ ks ts) fs h := by
  refine ⟨by simp [Changes.addNode, hseq, hp.len], ?_⟩
  refine ⟨hop.sub (by count_tac), hseq, hp.append hheap,
    .new (by simp) fun t ht => (hrep t ht).append _, ?_, hfr, hctx, goodN_mk.mpr ⟨hfill, hkids⟩, ?_,
    by simp, by simp [T.ref]⟩
  · intro r hr hne
    simp only [T.refs, List.mem_cons] at hr
    rcases hr with e | hr
    · subst e; exact absurd rfl hne
    · exact hlive r hr hne
  · simp only [T.refs, List.cons_append, List.nodup_cons, List.mem_append, not_or]
    exact ⟨⟨fresh_refsL hrep (Nat.le_refl _), fresh_ctx hfr _⟩, hnd⟩

theorem repairLoop_run {c : List Bytes} {io : Io} : ∀ (fs : List Fr) (f : Fr) (s : St)
    (R : Child → Prop) (ch : Changes) (Pv : List Node) (h d : Nat) (dks : List Nat) (dts : List T),
    Def c io s R ch Pv f fs h d dks dts →
    ∃ s' t fs' ch' R' Pv' h', repairLoop 8 (fs.map Fr.step) f.a f.ka.length d ch s
        = (.ok (t.ref, fs'.map Fr.step, ch'), s') ∧
      Ready c io s' ch' R' Pv' t fs' h' ∧ (∀ r, R' r → R r) ∧ ch'.key = ch.key ∧ ch'.value = ch.value ∧
      preC fs' ++ t.flat ++ postC fs' = preC (f :: fs) ++ flatL dks dts ++ postC (f :: fs) ∧
      Pv'.length + fs'.length ≤ Pv.length + fs.length + 3 ∧ h' + fs'.length ≤ h + fs.length + 1 := by
  intro fs
  induction fs with
  | nil =>
    intro f s R ch Pv h d dks dts D
    obtain ⟨s1, ch1, h1, F⟩ := repairOne_run D
    obtain ⟨R', Pn, fks, fts, M, hR, hfl, hn⟩ := F.ex
    have hfill := D.ctx.2.1
    simp only [List.isEmpty_nil] at hfill
    rw [List.map_nil, repairLoop, bind_ok h1, bind_ok (readNode_some M.heap)]
    have hpn : Pn.length ≤ 2 := by omega
    have hkl := M.kids
    simp only [Kids] at hkl
    by_cases hcol : fks = []
    · subst hcol
      obtain ⟨t, rfl⟩ : ∃ t, fts = [t] := List.length_eq_one_iff.mp (by simpa using hkl.1)
      rw [if_pos (by simp)]
      simp only [List.map_cons, List.map_nil, List.getElem?_cons_zero, orPanic_some, pure_bind_run]
      refine ⟨s1, t, [], ch1, R', Pv ++ Pn, h, rfl, ⟨?_, M.seq, M.pend, M.rep t (by simp), ?_, by simp,
        trivial, (hkl.2 t (by simp)).as_root, ?_, M.ne, M.single t rfl⟩, hR, F.key, F.value, ?_, ?_, ?_⟩
      · refine M.op.sub ?_
        count_tac
      · intro r hr; exact M.live r (by simp [refsL, hr])
      · have := M.nodup; simpa [refsL, ctxRefs] using this
      · simp only [flatL, List.append_nil] at hfl
        simp [preC, postC, hfl]
      · simp; omega
      · simp
    · rw [if_neg (by simp [hcol])]
      have hpos : 0 < fks.length := List.length_pos_iff.mpr hcol
      obtain ⟨ha, hr⟩ := ready_add (h := h + 1) M.op M.seq M.pend M.heap M.rep M.live M.frs trivial M.kids
        ⟨by have := hfill.1; omega, by simp, fun _ _ => hpos⟩ M.nodup
      simp only [ha]
      refine ⟨s1, _, [], _, R', _, h + 1, rfl, hr, hR, F.key, F.value, ?_, ?_, ?_⟩
      · simp [preC, postC, T.flat, hfl]
      · simp; omega
      · simp
  | cons g gs ih =>
    intro f s R ch Pv h d dks dts D
    obtain ⟨s1, ch1, h1, F⟩ := repairOne_run D
    obtain ⟨R', Pn, fks, fts, M, hR, hfl, hn⟩ := F.ex
    have hfill := D.ctx.2.1
    simp only [List.isEmpty_cons] at hfill
    have hctx := D.ctx.2.2.2.2
    rw [List.map_cons, repairLoop, bind_ok h1, bind_ok (readNode_some M.heap)]
    rw [if_neg (by simp)]
    have hm : minKeys 8 = 4 := rfl
    simp only [Fr.step, hm]
    have hpre : preC (f :: g :: gs) ++ flatL dks dts ++ postC (f :: g :: gs)
        = preC (g :: gs) ++ flatL fks fts ++ postC (g :: gs) := by
      rw [hfl]; simp [preC, postC]
    by_cases h4 : 4 ≤ fks.length
    · rw [if_pos h4]
      obtain ⟨ha, hr⟩ := ready_add (h := h + 1) M.op M.seq M.pend M.heap M.rep M.live M.frs hctx M.kids
        ⟨by have := hfill.1; omega, fun _ => h4, by simp⟩ M.nodup
      simp only [ha]
      refine ⟨s1, _, g :: gs, _, R', _, h + 1, rfl, hr, hR, F.key, F.value, ?_, ?_, ?_⟩
      · rw [hpre]; simp [T.flat]
      · simp; omega
      · simp; omega
    · rw [if_neg h4]
      have h3 : fks.length = 3 ∧ Pn.length = 1 := by
        have := hfill.2.1 rfl
        omega
      have D' : Def c io s1 R' ch1 (Pv ++ Pn) g gs (h + 1) f.a fks fts :=
        ⟨M.op, M.seq, M.pend, M.heap, M.kids, M.rep, M.live, M.frs, hctx, M.nodup, h3.1⟩
      obtain ⟨s', t, fs', ch', R'', Pv', h', q1, q2, q3, q4, q5, q6, q7, q8⟩ := ih g _ _ _ _ _ _ _ _ D'
      refine ⟨s', t, fs', ch', R'', Pv', h', q1, q2, fun r hr => hR r (q3 r hr), q4.trans F.key,
        q5.trans F.value, by rw [q6, hpre], ?_, ?_⟩
      · simp only [List.length_append, List.length_cons] at *; omega
      · simp only [List.length_cons]; omega

/-- The part of `del` after a key was removed from the leaf `bottom`, src/del.rs:455-470. -/
def delTail (ch : Changes) (path : NodePath) (bottom : Nat) : M Changes := do
  let bn ← readNode bottom
  let (childRef, path, ch) ←
    if path.isEmpty = false ∧ bn.keys.length < minKeys MAX_KEYS then repair path MAX_KEYS ch
    else
      let (ch, c) := ch.addNode bottom
      pure (c, path, ch)
  if path.isEmpty = false then propagate ch path childRef else pure ch

theorem Ready.finish {c : List Bytes} {io : Io} {s : St} {ch : Changes} {R : Child → Prop}
    {Pv : List Node} {t : T} {fs : List Fr} {h : Nat} (r : Ready c io s ch R Pv t fs h) :
    ∃ ch' s' Pv' t', (if (fs.map Fr.step).isEmpty = false then propagate ch (fs.map Fr.step) t.ref
          else pure ch) s = (.ok ch', s') ∧
      Done c io s' ch' R Pv' t' ∧ ch'.key = ch.key ∧ ch'.value = ch.value ∧
      GoodN true (h + fs.length) t' ∧ t'.flat = preC fs ++ t.flat ++ postC fs ∧
      Pv'.length = Pv.length + fs.length := by
  have := propagate_run fs s ch Pv t h r.op r.seq r.pend r.rep r.live r.frs r.ctx r.good r.nodup r.ne r.ref
  cases fs with
  | nil => exact this
  | cons f fs => exact this

theorem delTail_run {c : List Bytes} {io : Io} {s : St} {R : Child → Prop} {ch : Changes}
    {fs : List Fr} {a : Nat} {ks : List Nat} {r0 : Child}
    (hop : Op c io s R (a :: (fs.map (·.a) ++ ch.nodes))) (hseq : ch.seq = c.length)
    (hn : ch.nodes = []) (hheap : s.heap[a]? = some ⟨ks, []⟩)
    (hfr : ∀ f ∈ fs, FrH c R s f) (hctx : CtxGood 0 fs) (h8 : ks.length ≤ 8)
    (h3 : fs ≠ [] → 3 ≤ ks.length) (hnd : (ctxRefs fs).Nodup)
    (haddr : addrOf s r0 = some a) (hr0 : ∃ m, nodeAt c r0 = some m)
    (hhole : ∀ f ∈ fs.head?, s.heap[f.a]? = some ⟨f.ka ++ f.kb, f.A.map T.ref ++ r0 :: f.B.map T.ref⟩) :
    ∃ ch' s' R' Pv' t' H', delTail ch (fs.map Fr.step) a s = (.ok ch', s') ∧
      Done c io s' ch' R' Pv' t' ∧ (∀ r, R' r → R r) ∧ ch'.key = ch.key ∧ ch'.value = ch.value ∧
      GoodN true H' t' ∧ t'.flat = preC fs ++ ks ++ postC fs ∧ Pv'.length ≤ fs.length + 2 ∧
      H' ≤ fs.length := by
  have hp : PendH s ch.nodes [] := by rw [hn]; exact PendH.nil s
  unfold delTail
  rw [bind_ok (readNode_some hheap)]
  have hm : minKeys MAX_KEYS = 4 := rfl
  simp only [hm]
  cases fs with
  | nil =>
    rw [if_neg (by simp)]
    obtain ⟨ha, hr⟩ := ready_add (fs := []) (h := 0) (ts := []) hop hseq hp hheap (by simp) (by simp [refsL])
      (by simp) trivial rfl ⟨h8, by simp, by simp⟩ (by simp [refsL, ctxRefs])
    simp only [ha, pure_bind_run]
    obtain ⟨ch', s', Pv', t', q1, q2, q3, q4, q5, q6, q7⟩ := hr.finish
    refine ⟨ch', s', R, Pv', t', 0, q1, q2, fun _ h => h, q3, q4, q5, ?_, by simp at q7 ⊢; omega, by simp⟩
    rw [q6]; simp [T.flat, flatL_nil]
  | cons f fs =>
    have h3' := h3 (by simp)
    by_cases h4 : 4 ≤ ks.length
    · rw [if_neg (by simp; omega)]
      obtain ⟨ha, hr⟩ := ready_add (fs := f :: fs) (h := 0) (ts := []) hop hseq hp hheap (by simp) (by simp [refsL])
        hfr hctx rfl ⟨h8, fun _ => h4, by simp⟩ (by simpa [refsL] using hnd)
      simp only [ha, pure_bind_run]
      obtain ⟨ch', s', Pv', t', q1, q2, q3, q4, q5, q6, q7⟩ := hr.finish
      refine ⟨ch', s', R, Pv', t', _, q1, q2, fun _ h => h, q3, q4, q5, ?_, by simp at q7 ⊢; omega, by simp⟩
      rw [q6]; simp [T.flat, flatL_nil]
    · have hif : ((f :: fs).map Fr.step).isEmpty = false ∧ ks.length < 4 := by
        simp; omega
      rw [if_pos hif]
      have hf := hhole f (by simp)
      obtain ⟨m, hm0⟩ := hr0
      obtain ⟨a', s1, g1, e1, ha'⟩ := getChild_run (i := f.ka.length) (r := r0) hop.wf hf
        (by rw [← hctx.1.1]; simp) (by rw [hop.core]; exact hm0)
      have : a' = a := by
        have := e1.addr haddr
        rw [ha'] at this
        exact Option.some.inj this
      subst this
      have D : Def c io s R ch [] f fs 0 a' ks [] :=
        ⟨hop, hseq, hp, hheap, rfl, by simp, by simp [refsL], hfr, hctx, by simpa [refsL] using hnd, by omega⟩
      obtain ⟨s', t, fs', ch', R', Pv', h', q1, q2, q3, q4, q5, q6, q7, q8⟩ :=
        repairLoop_run fs f _ _ _ _ _ _ _ _ (D.ext e1)
      have hrep : repair ((f :: fs).map Fr.step) MAX_KEYS ch s = (.ok (t.ref, fs'.map Fr.step, ch'), s') := by
        simp only [repair, List.map_cons, Fr.step]
        rw [bind_ok g1]
        exact q1
      rw [bind_ok hrep]
      obtain ⟨ch2, s2, Pv2, t2, p1, p2, p3, p4, p5, p6, p7⟩ := q2.finish
      refine ⟨ch2, s2, R', Pv2, t2, _, p1, p2, q3, p3.trans q4, p4.trans q5, p5, ?_, ?_, ?_⟩
      · rw [p6, q6]; simp [flatL_nil]
      · simp at q7 ⊢; omega
      · simp at q8 ⊢; omega

/-! ## Removing a key from an internal node -/

theorem head_hole {c : List Bytes} {s : St} {R : Child → Prop} {f : Fr} {fs : List Fr} {n : T}
    (hcore : s.core = c) (hcoh : Coh s R) (hrep : Rep (nodeAt c) (plug (f :: fs) n))
    (hR : ∀ r ∈ (plug (f :: fs) n).refs, R r) (ha : addrOf s f.ref = some f.a) :
    s.heap[f.a]? = some ⟨f.ka ++ f.kb, f.A.map T.ref ++ n.ref :: f.B.map T.ref⟩ := by
  have h1 : Rep (nodeAt c) (.mk f.ref (f.ka ++ f.kb) (f.A ++ n :: f.B)) := plug_rep (fs := fs) hrep
  have h2 : f.ref ∈ (plug (f :: fs) n).refs := plug_refs (fs := fs) (by simp [T.refs])
  rw [hcoh _ (hR _ h2) _ ha, hcore]
  simpa [T.node, T.keys, T.kids, T.ref] using h1.node

theorem CtxGood.swap {h : Nat} {gs fs : List Fr} {g g' : Fr} (hc : CtxGood h (gs ++ g :: fs))
    (hA : g'.A = g.A) (hB : g'.B = g.B) (hka : g'.ka.length = g.ka.length)
    (hkb : g'.kb.length = g.kb.length) : CtxGood h (gs ++ g' :: fs) := by
  induction gs generalizing h with
  | nil =>
    obtain ⟨h1, h2, h3, h4, h5⟩ := hc
    refine ⟨⟨?_, ?_⟩, ?_, ?_, ?_, h5⟩
    · rw [hA, hka]; exact h1.1
    · rw [hB, hkb]; exact h1.2
    · rw [hka, hkb]; exact h2
    · rw [hA]; exact h3
    · rw [hB]; exact h4
  | cons f gs ih =>
    obtain ⟨h1, h2, h3, h4, h5⟩ := hc
    refine ⟨h1, ?_, h3, h4, ih h5⟩
    have : ∀ x, (gs ++ x :: fs).isEmpty = false := by intro x; cases gs <;> rfl
    show Fill (gs ++ g' :: fs).isEmpty (h + 1) _
    rw [this]
    have h2' : Fill (gs ++ g :: fs).isEmpty (h + 1) (f.ka.length + f.kb.length) := h2
    rw [this] at h2'
    exact h2'

theorem ctxRefs_append (gs fs : List Fr) : ctxRefs (gs ++ fs) = ctxRefs gs ++ ctxRefs fs := by
  induction gs with
  | nil => simp [ctxRefs]
  | cons g gs ih => simp [ctxRefs, ih]

theorem fillN_leaf {root : Bool} {h : Nat} {n : T} (hg : GoodN root h n) (hk : n.kids = []) : h = 0 := by
  obtain ⟨r, ks, ts⟩ := n
  simp only [T.kids] at hk
  subst hk
  cases h with
  | zero => rfl
  | succ h => have := hg.1; simp at this

/-- The node at `a` lost a key, which is replaced by a key taken from the leaf at `ll` below it. -/
theorem delInternal_run {c : List Bytes} {io : Io} {s : St} {R : Child → Prop} {ch : Changes} {H : Nat}
    {fs gs : List Fr} {a ll : Nat} {r : Child} {nks0 ks' : List Nat} {nts : List T} {tc leaf : T}
    {g0 g : Fr}
    (hgood : GoodN true H (plug fs (.mk r nks0 nts))) (hok : ∀ f ∈ fs, f.OK)
    (hnd : (refsL nts ++ ctxRefs fs).Nodup) (hrepk : ∀ t ∈ nts, Rep (nodeAt c) t)
    (hop : Op c io s R (a :: fs.map (·.a))) (hfr : ∀ f ∈ fs, FrH c R s f)
    (hR : ∀ x ∈ refsL nts, R x) (hseq : ch.seq = c.length) (hn : ch.nodes = [])
    (hg0 : g0.OK ∧ g0.A ++ tc :: g0.B = nts ∧ g0.ka ++ g0.kb = nks0 ∧ g0.ref = r)
    (hg : g.a = a ∧ g.A = g0.A ∧ g.B = g0.B ∧ g.ka.length = g0.ka.length ∧ g.kb.length = g0.kb.length)
    (hplug : plug gs leaf = tc) (hgs : ∀ f ∈ gs, f.OK ∧ addrOf s f.ref = some f.a)
    (hll : addrOf s leaf.ref = some ll) (hlk : leaf.kids = []) (hks : leaf.keys.length = ks'.length + 1) :
    a ≠ ll ∧ s.heap[ll]? = some ⟨leaf.keys, []⟩ ∧
    ∃ ch' s' R' Pv' t' H', delTail ch ((gs ++ g :: fs).map Fr.step) ll
        ((s.wr ll ⟨ks', []⟩).wr a ⟨g.ka ++ g.kb, nts.map T.ref⟩) = (.ok ch', s') ∧
      Done c io s' ch' R' Pv' t' ∧ (∀ r, R' r → R r) ∧ ch'.key = ch.key ∧ ch'.value = ch.value ∧
      GoodN true H' t' ∧ t'.flat = preC (gs ++ g :: fs) ++ ks' ++ postC (gs ++ g :: fs) ∧
      Pv'.length ≤ H + 2 ∧ H' ≤ H := by
  obtain ⟨hg0ok, hnts, hnks, hg0r⟩ := hg0
  obtain ⟨hga, hgA, hgB, hgka, hgkb⟩ := hg
  -- the whole path
  have hwhole : plug (gs ++ g0 :: fs) leaf = plug fs (.mk r nks0 nts) := by
    rw [plug_append, hplug, plug, hnts, hnks, hg0r]
  obtain ⟨h, hH, hctx0, hgl⟩ := CtxGood.unplug (fs := gs ++ g0 :: fs) (t := leaf) (H := H) (by
      intro f hf
      rcases List.mem_append.mp hf with hf | hf
      · exact (hgs f hf).1
      · rcases List.mem_cons.mp hf with rfl | hf
        · exact hg0ok
        · exact hok f hf) (by rw [hwhole]; exact hgood)
  have hh0 : h = 0 := fillN_leaf hgl hlk
  subst hh0
  have hne : (gs ++ g0 :: fs).isEmpty = false := by cases gs <;> rfl
  rw [hne] at hgl
  have hfill : 4 ≤ leaf.keys.length ∧ leaf.keys.length ≤ 8 := by
    obtain ⟨lr, lks, lts⟩ := leaf
    have := (goodN_mk.mp hgl).1
    exact ⟨this.2.1 rfl, this.1⟩
  have hctx : CtxGood 0 (gs ++ g :: fs) := hctx0.swap hgA hgB hgka hgkb
  -- take the path to the leaf
  have htc : tc ∈ nts := by rw [← hnts]; simp
  have hndk : (refsL nts).Nodup := (List.nodup_append.mp hnd).1
  have hndtc : (refsL g0.A ++ (plug gs leaf).refs ++ (refsL g0.B ++ ctxRefs fs)).Nodup := by
    rw [← hnts] at hnd
    rw [hplug]
    refine nodup_of_count_le ?_ hnd
    count_tac
  have hsubR : ∀ x ∈ (plug gs leaf).refs, R x := by
    intro x hx
    rw [hplug] at hx
    exact hR x (mem_refsL.mpr ⟨tc, htc, hx⟩)
  have hreptc : Rep (nodeAt c) (plug gs leaf) := by rw [hplug]; exact hrepk tc htc
  obtain ⟨R', o1, o2, o3, o4, o5, o6, o7, o8⟩ := node_own hop hreptc
    (by rw [List.append_assoc, List.nodup_append] at hndtc; exact (List.nodup_append.mp hndtc.2.1).1)
    hsubR (fun f hf => (hgs f hf).2) hll
  have hheap : s.heap[ll]? = some ⟨leaf.keys, []⟩ := by rw [o7]; simp [T.node, hlk]
  have hnod := o1.nodup
  simp only [List.nodup_cons, List.mem_append, List.mem_cons, List.mem_map, not_or, not_exists, not_and] at hnod
  obtain ⟨⟨m1, m2, m3⟩, hnod2⟩ := hnod
  rw [List.nodup_append] at hnod2
  obtain ⟨_, hnod3, hnod4⟩ := hnod2
  rw [List.nodup_cons] at hnod3
  have hneall : a ≠ ll := fun e => m2 e.symm
  refine ⟨hneall, hheap, ?_⟩
  have l1 := o1.lt ll (by simp)
  have l2 := o1.lt a (by simp)
  generalize hs1 : (s.wr ll ⟨ks', []⟩).wr a ⟨g.ka ++ g.kb, nts.map T.ref⟩ = s1
  have g1 : ∀ b, s1.heap[b]? = if b = a then some ⟨g.ka ++ g.kb, nts.map T.ref⟩
      else if b = ll then some ⟨ks', []⟩ else s.heap[b]? := by
    intro b; rw [← hs1, St.wr_get (by rw [St.wr_len]; exact l2), St.wr_get l1]
  have hop1 : Op c io s1 R' (ll :: (gs.map (·.a) ++ a :: fs.map (·.a))) := by
    rw [← hs1]; exact (o1.write (by simp) _).write (by simp) _
  have hdisj : ∀ x, x ∈ refsL g0.A ∨ x ∈ refsL g0.B ∨ x ∈ ctxRefs fs → x ∉ (plug gs leaf).refs := by
    intro x hx hm
    rw [List.nodup_append, List.nodup_append] at hndtc
    obtain ⟨⟨_, _, q1⟩, _, q2⟩ := hndtc
    rcases hx with hx | hx | hx
    · exact q1 x hx x hm rfl
    · exact q2 x (by simp [hm]) x (by simp [hx]) rfl
    · exact q2 x (by simp [hm]) x (by simp [hx]) rfl
  have hntA : ∀ t ∈ g0.A, t ∈ nts := fun t ht => by rw [← hnts]; simp [ht]
  have hntB : ∀ t ∈ g0.B, t ∈ nts := fun t ht => by rw [← hnts]; simp [ht]
  have hfrg : FrH c R' s1 g := by
    refine ⟨⟨tc.ref, ?_⟩, ?_, ?_⟩
    · rw [hga, g1, if_pos rfl, hgA, hgB, ← hnts]; simp
    · intro t ht
      rw [hgA] at ht
      refine ⟨hrepk t (hntA t ht), fun x hx => o8 x ?_ (hdisj x (.inl (mem_refsL.mpr ⟨t, ht, hx⟩)))⟩
      exact hR x (mem_refsL.mpr ⟨t, hntA t ht, hx⟩)
    · intro t ht
      rw [hgB] at ht
      refine ⟨hrepk t (hntB t ht), fun x hx => o8 x ?_ (hdisj x (.inr (.inl (mem_refsL.mpr ⟨t, ht, hx⟩))))⟩
      exact hR x (mem_refsL.mpr ⟨t, hntB t ht, hx⟩)
  have hfrs : ∀ f ∈ gs ++ g :: fs, FrH c R' s1 f := by
    intro f hf
    rcases List.mem_append.mp hf with hf | hf
    · refine (o2 f hf).same ?_
      rw [g1, if_neg, if_neg]
      · exact fun e => m1 f hf e
      · intro e; exact hnod4 f.a (List.mem_map.mpr ⟨f, hf, rfl⟩) a (by simp) e
    · rcases List.mem_cons.mp hf with rfl | hf
      · exact hfrg
      · refine ((hfr f hf).mono fun x hx h => o8 x h (hdisj x (.inr (.inr (ctxRefs_mem hf x hx))))).same ?_
        rw [g1, if_neg, if_neg]
        · exact fun e => m3 f hf e
        · intro e; exact hnod3.1 (List.mem_map.mpr ⟨f, hf, e⟩)
  have hndc : (ctxRefs (gs ++ g :: fs)).Nodup := by
    have h1 : ∀ x, (ctxRefs (gs ++ g :: fs)).count x ≤ (refsL nts ++ ctxRefs fs).count x := by
      intro x
      have := plug_count gs leaf x
      rw [hplug] at this
      rw [← hnts, ctxRefs_append]
      simp only [ctxRefs, hgA, hgB, refsL_append, refsL, List.count_append] at *
      omega
    exact nodup_of_count_le h1 hnd
  obtain ⟨m, hm⟩ := (plug_rep hreptc).refs_some leaf.ref (T.ref_mem_refs _)
  obtain ⟨ch', s', R'', Pv', t', H', p1, p2, p3, p4, p5, p6, p7, p8, p9⟩ := delTail_run (ch := ch)
    (fs := gs ++ g :: fs) (a := ll) (ks := ks') (r0 := leaf.ref) (s := s1) (R := R') (c := c) (io := io)
    (by rw [hn, List.append_nil, List.map_append, List.map_cons, hga]; exact hop1) hseq hn
    (by rw [g1, if_neg (Ne.symm hneall), if_pos rfl]) hfrs hctx (by omega) (by omega) hndc
    (by rw [← hs1]; exact hll) ⟨m, hm⟩ (by
      intro f hf
      cases gs with
      | nil =>
        simp at hf
        subst hf
        rw [hga, g1, if_pos rfl, hgA, hgB, ← hnts, ← hplug]; simp [plug]
      | cons f' gs =>
        simp at hf
        subst hf
        rw [g1, if_neg, if_neg]
        · exact head_hole hop.core hop.coh hreptc hsubR (hgs f' (by simp)).2
        · exact fun e => m1 f' (by simp) e
        · intro e; exact hnod4 f'.a (List.mem_map.mpr ⟨f', by simp, rfl⟩) a (by simp) e)
  have hlen : (gs ++ g :: fs).length = H := by
    rw [hH]; simp
  rw [hlen] at p8 p9
  exact ⟨ch', s', R'', Pv', t', H', p1, p2, fun r hr => o5 r (p3 r hr), p4, p5, p6, p7, p8, p9⟩

theorem Found.ext {s s' : St} {key : LimitValue} {t : T} {m : Option Nat} {a i : Nat} {fs : List Fr}
    {n : T} (f : Found s key t m a i fs n) (e : Ext s s') : Found s' key t m a i fs n :=
  ⟨f.plug, fun g hg => ⟨(f.frs g hg).1, e.addr (f.frs g hg).2⟩, e.addr f.addr, f.le,
    fun q hq => by rw [e.core]; exact f.hit q hq, fun hm => by rw [e.core]; exact f.miss hm⟩

theorem nearestNode_sub (key : LimitValue) {s : St} {h : Nat} {t : T} {a : Nat} (hw : SWF s)
    (hh : h ≤ s.core.length) (hrep : Rep (nodeAt s.core) t) (hc : Coh s (· ∈ t.refs)) (hsh : Shape h t)
    (hs : Srt s.core t.flat) (hd : ∀ q ∈ t.flat, ∃ b, blockAt s.core q = some b)
    (ha : addrOf s t.ref = some a) :
    ∃ m a' i fs n s', nearestNode a key s = (.ok (m, (a', i) :: fs.map Fr.step), s') ∧ Ext s s' ∧
      Found s' key t m a' i fs n := by
  obtain ⟨m, a', i, fs, n, s', h1, h2, h3⟩ := nearestLoop_run key h (stepBound s.core) t s a []
    (by unfold stepBound; omega) hw hrep hc hsh hs hd ha
  refine ⟨m, a', i, fs, n, s', ?_, h2, h3⟩
  unfold nearestNode
  rw [bind_ok (show descentFuel s = (.ok (stepBound s.core), s) from rfl), h1]
  simp

theorem Found.posInf {s : St} {t : T} {m : Option Nat} {a i : Nat} {fs : List Fr} {n : T}
    (f : Found s (.infinite .positive) t m a i fs n) : m = none ∧ n.kids = [] ∧ postC fs = [] := by
  have hm : m = none := by
    cases m with
    | none => rfl
    | some q => have := (f.hit q rfl).2; simp [LimitValue.cmp, InfiniteKeys.cmp] at this
  obtain ⟨h1, _, h3⟩ := f.miss hm
  refine ⟨hm, h1, ?_⟩
  cases hp : postC fs with
  | nil => rfl
  | cons x xs =>
    have := h3 x (by simp [hp])
    simp [LimitValue.cmp, InfiniteKeys.cmp] at this

theorem Found.negInf {s : St} {t : T} {m : Option Nat} {a i : Nat} {fs : List Fr} {n : T}
    (f : Found s (.infinite .negative) t m a i fs n) : m = none ∧ n.kids = [] ∧ preC fs = [] := by
  have hm : m = none := by
    cases m with
    | none => rfl
    | some q => have := (f.hit q rfl).2; simp [LimitValue.cmp, InfiniteKeys.cmp] at this
  obtain ⟨h1, h2, _⟩ := f.miss hm
  refine ⟨hm, h1, ?_⟩
  cases hp : preC fs with
  | nil => rfl
  | cons x xs =>
    have := h2 x (by simp [hp])
    simp [LimitValue.cmp, InfiniteKeys.cmp] at this

theorem vecInsert_mid (A B : List α) (x : α) : vecInsert (A ++ B) A.length x = some (A ++ x :: B) := by
  simp [vecInsert]

end Hyperbee
