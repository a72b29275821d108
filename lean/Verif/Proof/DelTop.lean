import Verif.Proof.DelRun
/-!
# Deletion on a handle with a tree
-/

namespace Hyperbee

theorem split_unique {A B C D : List Nat} (h : ∀ q, A ++ q :: B = C ++ q :: D) : A = C ∧ B = D := by
  induction A generalizing C with
  | nil =>
    cases C with
    | nil => exact ⟨rfl, by simpa using h 0⟩
    | cons c C =>
      have h0 := h 0
      have h1 := h 1
      simp only [List.nil_append, List.cons_append, List.cons.injEq] at h0 h1
      omega
  | cons a A ih =>
    cases C with
    | nil =>
      have h0 := h 0
      have h1 := h 1
      simp only [List.nil_append, List.cons_append, List.cons.injEq] at h0 h1
      omega
    | cons c C =>
      have hac : a = c := by have := h 0; simp only [List.cons_append, List.cons.injEq] at this; exact this.1
      have := ih (C := C) fun q => by
        have := h q; simp only [List.cons_append, List.cons.injEq] at this; exact this.2
      exact ⟨by rw [hac, this.1], this.2⟩

theorem FrH.ext {c : List Bytes} {R : Child → Prop} {s s' : St} {f : Fr} (h : FrH c R s f) (e : Ext s s') :
    FrH c R s' f := by
  obtain ⟨hole, h1⟩ := h.1
  exact h.same (by rw [h1]; exact e.get h1)

theorem vecRemove_zero (x : α) (l : List α) : vecRemove (x :: l) 0 = some (x, l) := vecRemove_mid [] l x

theorem leaf_fill {gs fs : List Fr} {g : Fr} {leaf : T} {H : Nat} (h1 : ∀ f ∈ gs, f.OK) (h2 : g.OK)
    (h3 : ∀ f ∈ fs, f.OK) (hg : GoodN true H (plug (gs ++ g :: fs) leaf)) (hk : leaf.kids = []) :
    4 ≤ leaf.keys.length := by
  obtain ⟨h, _, _, hgl⟩ := CtxGood.unplug (fs := gs ++ g :: fs) (t := leaf) (H := H) (by
    intro f hf
    rcases List.mem_append.mp hf with hf | hf
    · exact h1 f hf
    · rcases List.mem_cons.mp hf with rfl | hf
      · exact h2
      · exact h3 f hf) hg
  have hne : (gs ++ g :: fs).isEmpty = false := by cases gs <;> rfl
  rw [hne] at hgl
  obtain ⟨lr, lks, lts⟩ := leaf
  exact (goodN_mk.mp hgl).1.2.1 rfl

/-- `replace_removed_internal_key_with_a_key_from_leaf` followed by the rest of `del`. -/
theorem delReplace_run {c : List Bytes} {io : Io} {s : St} {R : Child → Prop} {ch : Changes} {H : Nat}
    {fs : List Fr} {a q : Nat} {r : Child} {ka kb : List Nat} {A B : List T} {tl tr : T}
    (hgood : GoodN true H (plug fs (.mk r (ka ++ q :: kb) (A ++ tl :: tr :: B)))) (hH : H ≤ c.length)
    (hok : ∀ f ∈ fs, f.OK)
    (hnd : (refsL (A ++ tl :: tr :: B) ++ ctxRefs fs).Nodup)
    (hrepk : ∀ t ∈ A ++ tl :: tr :: B, Rep (nodeAt c) t)
    (hop : Op c io s R (a :: fs.map (·.a))) (hfr : ∀ f ∈ fs, FrH c R s f)
    (hR : ∀ x ∈ refsL (A ++ tl :: tr :: B), R x) (hseq : ch.seq = c.length) (hn : ch.nodes = [])
    (hA : A.length = ka.length) (hB : B.length = kb.length)
    (hheap : s.heap[a]? = some ⟨ka ++ kb, (A ++ tl :: tr :: B).map T.ref⟩)
    (hsl : Srt c tl.flat) (hsr : Srt c tr.flat)
    (hdl : ∀ q ∈ tl.flat, ∃ b, blockAt c q = some b) (hdr : ∀ q ∈ tr.flat, ∃ b, blockAt c q = some b) :
    ∃ bot i path s2, replaceRemovedInternalKey (fs.map Fr.step) a ka.length s
        = (.ok ((bot, i) :: path), s2) ∧
    ∃ ch' s' R' Pv' t' H', delTail ch path bot s2 = (.ok ch', s') ∧
      Done c io s' ch' R' Pv' t' ∧ (∀ r, R' r → R r) ∧ ch'.key = ch.key ∧ ch'.value = ch.value ∧
      GoodN true H' t' ∧
      t'.flat = preC fs ++ (flatL ka (A ++ [tl]) ++ flatL kb (tr :: B)) ++ postC fs ∧
      Pv'.length ≤ H + 2 ∧ H' ≤ H := by
  -- the two subtrees are good
  obtain ⟨h, hHh, hctx, hgn⟩ := CtxGood.unplug hok hgood
  rw [goodN_mk] at hgn
  obtain ⟨h', rfl⟩ : ∃ h', h = h' + 1 := by
    cases h with
    | zero => have := hgn.2; simp [Kids] at this
    | succ h => exact ⟨h, rfl⟩
  have hgl : GoodN false h' tl := hgn.2.2 tl (by simp)
  have hgr : GoodN false h' tr := hgn.2.2 tr (by simp)
  have hRl : ∀ x ∈ tl.refs, R x := fun x hx => hR x (mem_refsL.mpr ⟨tl, by simp, hx⟩)
  have hRr : ∀ x ∈ tr.refs, R x := fun x hx => hR x (mem_refsL.mpr ⟨tr, by simp, hx⟩)
  have hcore := hop.core
  -- the left leaf
  obtain ⟨al, s1, g1, e1, hal⟩ := getChild_run (i := ka.length) (r := tl.ref) hop.wf hheap
    (by simp [← hA]) (by rw [hcore]; exact (hrepk tl (by simp)).node)
  have o1 := hop.ext e1
  obtain ⟨ml, ll, il, gl, nl, s2, g2, e2, fl⟩ := nearestNode_sub (.infinite .positive) (s := s1) (h := h') (t := tl)
    (a := al) o1.wf (by rw [o1.core]; omega) (by rw [o1.core]; exact hrepk tl (by simp))
    (o1.coh.mono hRl) hgl.shape (by rw [o1.core]; exact hsl) (by rw [o1.core]; exact hdl) hal
  have o2 := o1.ext e2
  obtain ⟨_, hnlk, hpostl⟩ := fl.posInf
  obtain ⟨hnl, _, _⟩ := fl.node (by rw [o2.core]; exact hrepk tl (by simp)) (o2.coh.mono hRl)
  -- the right leaf
  have hheap2 := (e1.trans e2).get hheap
  obtain ⟨ar, s3, g3, e3, har⟩ := getChild_run (i := ka.length + 1) (r := tr.ref) o2.wf hheap2
    (by simp [← hA]) (by rw [o2.core]; exact (hrepk tr (by simp)).node)
  have o3 := o2.ext e3
  obtain ⟨mr, rl, ir, gr, nr, s4, g4, e4, fr⟩ := nearestNode_sub (.infinite .negative) (s := s3) (h := h') (t := tr)
    (a := ar) o3.wf (by rw [o3.core]; omega) (by rw [o3.core]; exact hrepk tr (by simp))
    (o3.coh.mono hRr) hgr.shape (by rw [o3.core]; exact hsr) (by rw [o3.core]; exact hdr) har
  have o4 := o3.ext e4
  obtain ⟨_, hnrk, hprer⟩ := fr.negInf
  obtain ⟨hnr, _, _⟩ := fr.node (by rw [o4.core]; exact hrepk tr (by simp)) (o4.coh.mono hRr)
  have e24 := e3.trans e4
  have fl4 := fl.ext e24
  have hnl4 := e24.get hnl
  have hheap4 := e24.get hheap2
  have e14 : Ext s s4 := (e1.trans e2).trans e24
  have hfr4 : ∀ f ∈ fs, FrH c R s4 f := fun f hf => FrH.ext (hfr f hf) e14
  by_cases hlt : nl.node.keys.length < nr.node.keys.length
  · -- a key from the right leaf
    have h4 := leaf_fill (gs := gr) (g := ⟨a, r, ka ++ [q], kb, A ++ [tl], B⟩) (fs := fs) (leaf := nr) (H := H)
      (fun f hf => (fr.frs f hf).1) ⟨by simp [hA], hB⟩ hok (by
        rw [plug_append, fr.plug, plug]; simpa using hgood) hnrk
    obtain ⟨rr, rks, rts⟩ := nr
    simp only [T.kids, T.keys] at hnrk h4
    subst hnrk
    obtain ⟨x, rks, rfl⟩ : ∃ x rks', rks = x :: rks' := by
      cases rks with
      | nil => simp at h4
      | cons x rks => exact ⟨x, rks, rfl⟩
    obtain ⟨d1, d2, ch', s', R', Pv', t', H', d3, d4, d5, d6, d7, d8, d9, d10, d11⟩ :=
      delInternal_run (c := c) (io := io) (s := s4) (R := R) (ch := ch) (H := H) (fs := fs) (gs := gr)
      (a := a) (ll := rl) (r := r) (nks0 := ka ++ q :: kb) (ks' := rks) (nts := A ++ tl :: tr :: B)
      (tc := tr) (leaf := .mk rr (x :: rks) []) (g0 := ⟨a, r, ka ++ [q], kb, A ++ [tl], B⟩)
      (g := ⟨a, r, ka ++ [x], kb, A ++ [tl], B⟩)
      hgood hok hnd hrepk o4 hfr4 hR hseq hn ⟨⟨by simp [hA], hB⟩, by simp, by simp, rfl⟩
      ⟨rfl, rfl, rfl, by simp, rfl⟩ fr.plug fr.frs fr.addr rfl rfl
    refine ⟨rl, ir, gr.map Fr.step ++ (a, ka.length + 1) :: fs.map Fr.step, (s4.wr rl ⟨rks, []⟩).wr a ⟨ka ++ [x] ++ kb, (A ++ tl :: tr :: B).map T.ref⟩, ?_,
      ch', s', R', Pv', t', H', ?_, d4, d5, d6, d7, d8, ?_, d10, d11⟩
    rotate_left
    · rw [List.map_append, List.map_cons] at d3
      simp only [Fr.step, List.length_append, List.length_cons, List.length_nil, Nat.zero_add] at d3
      exact d3
    · rw [d9, preC_append, postC_append, hprer]
      have hrf : tr.flat = preC gr ++ (x :: rks) ++ postC gr := by
        rw [← fr.plug, flat_plug fun f hf => (fr.frs f hf).1, T.flat, flatL_nil]
      rw [flatL_post hB, hrf, hprer]
      have := flatL_hole (ka := ka) (kb := []) (A := A) (B := []) hA rfl tl
      rw [List.append_nil] at this
      rw [this]
      simp [preC, postC, preF_append hA, preF, postF]
    · unfold replaceRemovedInternalKey
      simp only []
      rw [bind_ok g1, bind_ok g2]
      simp only [List.head?_cons, orPanic_some, pure_bind_run]
      rw [bind_ok (readNode_some hnl), bind_ok g3, bind_ok g4]
      simp only [List.head?_cons, orPanic_some, pure_bind_run]
      rw [bind_ok (readNode_some hnr)]
      rw [if_pos hlt]
      rw [bind_ok (readNode_some d2)]
      simp only [T.keys, vecRemove_zero, orPanic_some, pure_bind_run]
      rw [bind_ok (writeNode_wr _ _ _)]
      have h5 : (s4.wr rl ⟨rks, []⟩).heap[a]? = some ⟨ka ++ kb, (A ++ tl :: tr :: B).map T.ref⟩ := by
        rw [St.wr_other (Ne.symm d1)]; exact hheap4
      rw [pure_bind_run, bind_ok (readNode_some h5)]
      simp only [vecInsert_mid, orPanic_some, pure_bind_run]
      rw [bind_ok (writeNode_wr _ _ _)]
      simp
  · -- a key from the left leaf
    have h4 := leaf_fill (gs := gl) (g := ⟨a, r, ka, q :: kb, A, tr :: B⟩) (fs := fs) (leaf := nl) (H := H)
      (fun f hf => (fl.frs f hf).1) ⟨hA, by simp [hB]⟩ hok (by
        rw [plug_append, fl.plug, plug]; simpa using hgood) hnlk
    obtain ⟨rr, lks, rts⟩ := nl
    simp only [T.kids, T.keys] at hnlk h4
    subst hnlk
    obtain ⟨lks, x, rfl⟩ : ∃ lks' x, lks = lks' ++ [x] := by
      have : lks ≠ [] := by intro e; simp [e] at h4
      exact ⟨lks.dropLast, lks.getLast this, (List.dropLast_append_getLast this).symm⟩
    obtain ⟨d1, d2, ch', s', R', Pv', t', H', d3, d4, d5, d6, d7, d8, d9, d10, d11⟩ :=
      delInternal_run (c := c) (io := io) (s := s4) (R := R) (ch := ch) (H := H) (fs := fs) (gs := gl)
      (a := a) (ll := ll) (r := r) (nks0 := ka ++ q :: kb) (ks' := lks) (nts := A ++ tl :: tr :: B)
      (tc := tl) (leaf := .mk rr (lks ++ [x]) []) (g0 := ⟨a, r, ka, q :: kb, A, tr :: B⟩)
      (g := ⟨a, r, ka, x :: kb, A, tr :: B⟩)
      hgood hok hnd hrepk o4 hfr4 hR hseq hn ⟨⟨hA, by simp [hB]⟩, by simp, by simp, rfl⟩
      ⟨rfl, rfl, rfl, by simp, rfl⟩ fl4.plug fl4.frs fl4.addr rfl (by simp [T.keys])
    refine ⟨ll, il, gl.map Fr.step ++ (a, ka.length) :: fs.map Fr.step, (s4.wr ll ⟨lks, []⟩).wr a ⟨ka ++ x :: kb, (A ++ tl :: tr :: B).map T.ref⟩, ?_,
      ch', s', R', Pv', t', H', ?_, d4, d5, d6, d7, d8, ?_, d10, d11⟩
    rotate_left
    · rw [List.map_append, List.map_cons] at d3
      simp only [Fr.step] at d3
      exact d3
    · rw [d9, preC_append, postC_append, hpostl]
      have hrf : tl.flat = preC gl ++ (lks ++ [x]) ++ postC gl := by
        rw [← fl.plug, flat_plug fun f hf => (fl.frs f hf).1, T.flat, flatL_nil]
      have := flatL_hole (ka := ka) (kb := []) (A := A) (B := []) hA rfl tl
      rw [List.append_nil] at this
      rw [this, flatL_post hB, hrf, hpostl]
      simp [preC, postC, postF]
    · unfold replaceRemovedInternalKey
      simp only []
      rw [bind_ok g1, bind_ok g2]
      simp only [List.head?_cons, orPanic_some, pure_bind_run]
      rw [bind_ok (readNode_some hnl), bind_ok g3, bind_ok g4]
      simp only [List.head?_cons, orPanic_some, pure_bind_run]
      rw [bind_ok (readNode_some hnr)]
      rw [if_neg hlt]
      rw [bind_ok (readNode_some d2)]
      simp only [T.keys, vecPop_last, orPanic_some, pure_bind_run]
      rw [bind_ok (writeNode_wr _ _ _)]
      have h5 : (s4.wr ll ⟨lks, []⟩).heap[a]? = some ⟨ka ++ kb, (A ++ tl :: tr :: B).map T.ref⟩ := by
        rw [St.wr_other (Ne.symm d1)]; exact hheap4
      rw [pure_bind_run, bind_ok (readNode_some h5)]
      simp only [vecInsert_mid, orPanic_some, pure_bind_run]
      rw [bind_ok (writeNode_wr _ _ _)]
      simp

/-! ## The whole operation -/

theorem delChanges_eq (key : Bytes) (a i : Nat) (path : NodePath) (s : St) (ks : List Nat) (k : Nat)
    (n : Node) (hn : s.heap[a]? = some n) (hr : vecRemove n.keys i = some (k, ks)) :
    delChanges key ((a, i) :: path) s
      = (if n.children.length = 0 then delTail (Changes.new s.core.length key none) path a
         else do
          let path ← replaceRemovedInternalKey path a i
          match path with
          | [] => throw (.panic "del.rs:457 if/else above ensures path is not empty")
          | (bottomNode, _) :: path => delTail (Changes.new s.core.length key none) path bottomNode)
        (s.wr a { n with keys := ks }) := by
  unfold delChanges
  rw [bind_ok (version_run s)]
  simp only []
  rw [bind_ok (readNode_some hn), hr]
  simp only [orPanic_some, pure_bind_run]
  rw [bind_ok (writeNode_wr _ _ _)]
  have hlt : a < s.heap.length := (List.getElem?_eq_some_iff.mp hn).1
  rw [bind_ok (isLeaf_run (St.wr_self hlt _))]
  by_cases hl : n.children.length = 0
  · rw [if_pos (by simp [hl]), if_pos hl]; rfl
  · rw [if_neg (by simpa using hl), if_neg hl]; rfl

/-- Removing the key a search has found, some reads later. -/
theorem delChanges_found {s s2 s3 : St} {H : Nat} {t : T} (ht : TreeAt s.core H t) (hw : SWF s)
    (hc : Coh s (· ∈ t.refs)) {key : Bytes} {q : Nat} {a' i : Nat} {fs : List Fr}
    {n : T} (e12 : Ext s s2) (hf : Found s2 (.finite key) t (some q) a' i fs n) (e3 : Ext s2 s3)
    {ka kb pre post : List Nat} (hk1 : n.keys = ka ++ (some q).toList ++ kb) (hk2 : ka.length = i)
    (hfl : ∀ q, preC fs ++ flatL (ka ++ q :: kb) n.kids ++ postC fs = pre ++ q :: post) :
    ∃ ch H' s', delChanges key ((a', i) :: fs.map Fr.step) s3 = (.ok ch, s') ∧
      Prep s.core s.io key none (· ∈ t.refs) s' ch (pre ++ post) H' (H + 2) ∧ H' ≤ H := by
  have e13 := e12.trans e3
  have hok : ∀ f ∈ fs, f.OK := fun f h => (hf.frs f h).1
  obtain ⟨h, hH, hctx, hgn⟩ := CtxGood.unplug hok (hf.plug ▸ ht.good)
  have hop : Op s.core s.io s3 (· ∈ t.refs) [] :=
    ⟨e13.core, e13.io, e13.wf, e13.coh hw hc, List.nodup_nil, by simp, by simp⟩
  obtain ⟨R, o1, o2, o3, o4, o5, o6, o7, _⟩ := node_own (fs := fs) (n := n) (a := a') hop
    (by rw [hf.plug]; exact ht.rep) (by rw [hf.plug]; exact ht.nodup)
    (by rw [hf.plug]; exact fun r hr => hr) (fun f h => e3.addr (hf.frs f h).2) (e3.addr hf.addr)
  rw [List.append_nil] at o1
  have hflat : t.flat = preC fs ++ n.flat ++ postC fs := by
    rw [← hf.plug, flat_plug hok]
  obtain ⟨r, ks, ts⟩ := n
  simp only [T.kids] at o3 o4 o6 hfl
  simp only [T.keys] at hk1
  simp only [Option.toList_some, List.append_assoc, List.singleton_append] at hk1
  subst hk1
  subst hk2
  have hnode : s3.heap[a']? = some ⟨ka ++ q :: kb, ts.map T.ref⟩ := o7
  have hgn' := goodN_mk.mp hgn
  have hlt := o1.lt a' (by simp)
  have hnod := o1.nodup
  rw [List.nodup_cons] at hnod
  have hself : (s3.wr a' ⟨ka ++ kb, ts.map T.ref⟩).heap[a']? = some ⟨ka ++ kb, ts.map T.ref⟩ :=
    St.wr_self hlt _
  have hop1 : Op s.core s.io (s3.wr a' ⟨ka ++ kb, ts.map T.ref⟩) R (a' :: fs.map (·.a)) :=
    o1.write (by simp) _
  have hfr1 : ∀ f ∈ fs, FrH s.core R (s3.wr a' ⟨ka ++ kb, ts.map T.ref⟩) f := fun f hf' =>
    (o2 f hf').same (St.wr_other (fun e => hnod.1 (List.mem_map.mpr ⟨f, hf', e.symm⟩)) _)
  -- the changes
  have hmain : ∃ ch' s' R' Pv' t' H', delChanges key ((a', ka.length) :: fs.map Fr.step) s3 = (.ok ch', s') ∧
      Done s.core s.io s' ch' R' Pv' t' ∧ (∀ r, R' r → R r) ∧ ch'.key = key ∧ ch'.value = none ∧
      GoodN true H' t' ∧ t'.flat = pre ++ post ∧ Pv'.length ≤ H + 2 ∧ H' ≤ H := by
    rw [delChanges_eq key a' ka.length _ s3 (ka ++ kb) q _ hnode (vecRemove_mid ka kb q), e13.core]
    by_cases hts0 : ts = []
    · subst hts0
      rw [if_pos (by simp)]
      have hh0 : h = 0 := fillN_leaf hgn rfl
      subst hh0
      have hfill := hgn'.1
      have hlen : (ka ++ q :: kb).length = (ka ++ kb).length + 1 := by simp; omega
      obtain ⟨m0, hm0⟩ := (plug_rep (N := nodeAt s.core) (fs := fs) (by rw [hf.plug]; exact ht.rep)).refs_some r
        (T.ref_mem_refs _)
      obtain ⟨ch', s', R', Pv', t', H', p1, p2, p3, p4, p5, p6, p7, p8, p9⟩ := delTail_run
        (ch := Changes.new s.core.length key none) (fs := fs) (a := a') (ks := ka ++ kb) (r0 := r)
        (s := s3.wr a' ⟨ka ++ kb, []⟩) (R := R) (c := s.core) (io := s.io)
        (by simpa [Changes.new] using hop1) rfl rfl hself hfr1 hctx
        (by have := hfill.1; omega)
        (by
          intro hne
          have : fs.isEmpty = false := by cases fs with
            | nil => exact absurd rfl hne
            | cons => rfl
          have := hfill.2.1 this
          omega)
        (by simpa [refsL] using o4) (e3.addr hf.addr) ⟨m0, hm0⟩ (by
          intro f hf'
          cases fs with
          | nil => simp at hf'
          | cons f' fs =>
            simp at hf'
            subst hf'
            rw [St.wr_other (fun e => hnod.1 (by simp [e]))]
            exact head_hole (n := .mk r (ka ++ q :: kb) []) hop.core hop.coh (by rw [hf.plug]; exact ht.rep)
              (by rw [hf.plug]; exact fun r hr => hr) (e3.addr (hf.frs f' (by simp)).2))
      refine ⟨ch', s', R', Pv', t', H', p1, p2, p3, p4, p5, p6, ?_, by omega, by omega⟩
      rw [p7]
      have := split_unique (A := preC fs ++ ka) (B := kb ++ postC fs) (C := pre) (D := post)
        fun x => by rw [← hfl x, flatL_nil]; simp
      rw [← this.1, ← this.2]; simp
    · rw [if_neg (by simpa using hts0)]
      obtain ⟨h', rfl⟩ : ∃ h', h = h' + 1 := by
        cases h with
        | zero => exact absurd hgn'.2 hts0
        | succ h => exact ⟨h, rfl⟩
      have hklen := hgn'.2.1
      obtain ⟨A, tl, tr, B, hts, hA, hB⟩ : ∃ A tl tr B, ts = A ++ tl :: tr :: B ∧
          A.length = ka.length ∧ B.length = kb.length := by
        have hl : ts.length = ka.length + kb.length + 2 := by rw [hklen]; simp; omega
        refine ⟨ts.take ka.length, ts[ka.length]'(by omega), ts[ka.length + 1]'(by omega),
          ts.drop (ka.length + 2), ?_, by simp; omega, by simp; omega⟩
        rw [List.getElem_cons_drop (as := ts) (i := ka.length + 1), List.getElem_cons_drop,
          List.take_append_drop]
      subst hts
      have hflq : flatL (ka ++ q :: kb) (A ++ tl :: tr :: B) = flatL ka (A ++ [tl]) ++ q :: flatL kb (tr :: B) := by
        have := flatL_split (lks := ka) (lts := A ++ [tl]) (by simp [hA]) q kb (tr :: B)
        simpa using this
      have hsub : (flatL (ka ++ q :: kb) (A ++ tl :: tr :: B)).Sublist t.flat := by
        rw [hflat, T.flat]
        exact (List.sublist_append_right _ _).trans (List.sublist_append_left _ _)
      have hsubl : tl.flat.Sublist t.flat := by
        refine List.Sublist.trans ?_ hsub
        rw [hflq]
        have := flatL_hole (ka := ka) (kb := []) (A := A) (B := []) hA rfl tl
        rw [List.append_nil] at this
        rw [this]
        exact ((List.sublist_append_right _ _).trans (List.sublist_append_left _ _)).trans
          (List.sublist_append_left _ _)
      have hsubr : tr.flat.Sublist t.flat := by
        refine List.Sublist.trans ?_ hsub
        rw [hflq, flatL_post hB]
        exact ((List.sublist_append_left _ _).trans (List.sublist_cons_self _ _)).trans
          (List.sublist_append_right _ _)
      obtain ⟨bot, i', path, s4, r1, ch', s', R', Pv', t', H', r2, r3, r4, r5, r6, r7, r8, r9, r10⟩ :=
        delReplace_run (c := s.core) (io := s.io) (ch := Changes.new s.core.length key none) (H := H) (fs := fs)
        (q := q) (r := r)
        (hf.plug ▸ ht.good) (Nat.le_of_lt ht.height_lt) hok o4 o6 hop1 hfr1 o3 rfl rfl hA hB hself
        (List.Pairwise.sublist hsubl ht.srt) (List.Pairwise.sublist hsubr ht.srt)
        (fun x hx => ht.dfd x (hsubl.subset hx)) (fun x hx => ht.dfd x (hsubr.subset hx))
      rw [bind_ok r1]
      refine ⟨ch', s', R', Pv', t', H', r2, r3, r4, r5, r6, r7, ?_, r9, r10⟩
      rw [r8]
      have := split_unique (A := preC fs ++ flatL ka (A ++ [tl])) (B := flatL kb (tr :: B) ++ postC fs)
        (C := pre) (D := post) fun x => by
          rw [← hfl x]
          have := flatL_split (lks := ka) (lts := A ++ [tl]) (by simp [hA]) x kb (tr :: B)
          simp only [List.append_assoc, List.singleton_append] at this
          rw [this]; simp
      rw [← this.1, ← this.2]; simp
  obtain ⟨ch', s', R', Pv', t', H', p1, p2, p3, p4, p5, p6, p7, p8, p9⟩ := hmain
  exact ⟨ch', H', s', p1, ⟨⟨R', Pv', t', p2, p6, p7, fun r hr => o5 r (p3 r hr), p8⟩, p4, p5⟩, p9⟩

theorem delPrepare_tree {s : St} {H : Nat} {t : T} (ht : TreeAt s.core H t) (hw : SWF s)
    (hc : Coh s (· ∈ t.refs)) (key : Bytes) (cas : KeyValueData → Bool) :
    ∃ m pre post s', Loc s.core key t.flat m pre post ∧
      (m = none → delPrepare key cas s = (.ok (.done none), s') ∧ Ext s s') ∧
      (∀ q, m = some q → cas ⟨q, keyOf s.core q, valOf s.core q⟩ = false →
        delPrepare key cas s = (.ok (.done (some (false, q))), s') ∧ Ext s s') ∧
      (∀ q, m = some q → cas ⟨q, keyOf s.core q, valOf s.core q⟩ = true →
        ∃ ch H', delPrepare key cas s = (.ok (.commit ch (some (true, q))), s') ∧
          Prep s.core s.io key none (· ∈ t.refs) s' ch (pre ++ post) H' (H + 2) ∧ H' ≤ H) := by
  obtain ⟨a, s1, h1, e1, ha⟩ := getRoot_run ht hw false
  obtain ⟨m, a', i, fs, n, s2, h2, e2, hf⟩ := nearestNode_run (.finite key) (s := s1) (a := a)
    (by rw [e1.core]; exact ht) e1.wf (e1.coh hw hc) ha
  have e12 := e1.trans e2
  have ht2 : TreeAt s2.core H t := by rw [e12.core]; exact ht
  obtain ⟨ka, kb, pre, post, hk1, hk2, hloc, hfl⟩ := hf.loc ht2
  rw [e12.core] at hloc
  cases m with
  | none =>
    refine ⟨none, pre, post, s2, hloc, fun _ => ⟨?_, e12⟩, by simp, by simp⟩
    unfold delPrepare
    rw [bind_ok h1]
    simp only []
    rw [bind_ok h2]
    rfl
  | some q =>
    obtain ⟨hn, _, _⟩ := hf.node ht2.rep (e12.coh hw hc)
    obtain ⟨hq1, _⟩ := hf.hit q rfl
    obtain ⟨b, hb⟩ := ht2.dfd q (by rw [hloc.eq]; simp)
    obtain ⟨s3, h3, e3⟩ := getKeyValue_run e2.wf hn (i := i) (q := q) hq1 hb
    have e13 := e12.trans e3
    have hpre : delPrepare key cas s
        = (if cas ⟨q, keyOf s.core q, valOf s.core q⟩ = false then pure (.done (some (false, q)))
           else do
            let ch ← delChanges key ((a', i) :: fs.map Fr.step)
            pure (.commit ch (some (true, q))) : M (Prepared (Option (Bool × Nat)))) s3 := by
      unfold delPrepare
      rw [bind_ok h1]
      simp only []
      rw [bind_ok h2]
      simp only [List.head?_cons, orPanic_some, pure_bind_run]
      rw [bind_ok h3]
      simp only [e12.core]
    cases hcas : cas ⟨q, keyOf s.core q, valOf s.core q⟩ with
    | false =>
      refine ⟨some q, pre, post, s3, hloc, by simp, ?_, ?_⟩
      · intro q' e _
        cases e
        exact ⟨by rw [hpre, if_pos hcas]; rfl, e13⟩
      · intro q' e h
        cases e
        exact absurd (hcas.symm.trans h) (by simp)
    | true =>
      rw [if_neg (by simp [hcas])] at hpre
      obtain ⟨ch', H', s', p1, p2, p3⟩ := delChanges_found ht hw hc e12 hf e3 hk1 hk2 hfl
      refine ⟨some q, pre, post, s', hloc, by simp, ?_, ?_⟩
      · intro q' e h
        cases e
        exact absurd (hcas.symm.trans h) (by simp)
      · intro q' e _
        cases e
        exact ⟨ch', H', by rw [hpre, bind_ok p1]; rfl, p2, p3⟩

/-- `del_compare_and_swap` on a handle with a tree. -/
theorem delCAS_tree {s : St} {H : Nat} {t : T} (ht : TreeAt s.core H t) (hw : SWF s)
    (hc : Coh s (· ∈ t.refs)) (hio : s.io.appendOk = true) (key : Bytes) (cas : KeyValueData → Bool) :
    ∃ m pre post s', Loc s.core key t.flat m pre post ∧
      (m = none → delCompareAndSwap key cas s = (.ok none, s') ∧ Ext s s') ∧
      (∀ q, m = some q → cas ⟨q, keyOf s.core q, valOf s.core q⟩ = false →
        delCompareAndSwap key cas s = (.ok (some (false, q)), s') ∧ Ext s s') ∧
      (∀ q, m = some q → cas ⟨q, keyOf s.core q, valOf s.core q⟩ = true →
        ∃ H' t', delCompareAndSwap key cas s = (.ok (some (true, q)), s') ∧
          Wrote s.core s.io key none (· ∈ t.refs) s' H' t' (pre ++ post) (H + 2) ∧ H' ≤ H) := by
  obtain ⟨m, pre, post, s1, hloc, h0, h1, h2⟩ := delPrepare_tree ht hw hc key cas
  cases m with
  | none =>
    obtain ⟨h3, h4⟩ := h0 rfl
    refine ⟨none, pre, post, s1, hloc, fun _ => ⟨?_, h4⟩, by simp, by simp⟩
    unfold delCompareAndSwap
    rw [bind_ok h3]; rfl
  | some q =>
    cases hcas : cas ⟨q, keyOf s.core q, valOf s.core q⟩ with
    | false =>
      obtain ⟨h3, h4⟩ := h1 q rfl hcas
      refine ⟨some q, pre, post, s1, hloc, by simp, ?_, ?_⟩
      · intro q' e _
        cases e
        refine ⟨?_, h4⟩
        unfold delCompareAndSwap
        rw [bind_ok h3]; rfl
      · intro q' e h
        cases e
        exact absurd (hcas.symm.trans h) (by simp)
    | true =>
      obtain ⟨ch, H', h3, h4, h5⟩ := h2 q rfl hcas
      have hc1 : 1 ≤ s.core.length := by have := ht.two; omega
      obtain ⟨f1, f2, f3⟩ := del_facts (value := none) hloc ht.srt ht.dfd ht.pos
      obtain ⟨s', t', h6, h7⟩ := commit_prep h4 hio hc1 f1 f2 f3
      refine ⟨some q, pre, post, s', hloc, by simp, ?_, ?_⟩
      · intro q' e h
        cases e
        exact absurd (hcas.symm.trans h) (by simp)
      · intro q' e _
        cases e
        refine ⟨H', t', ?_, h7, h5⟩
        unfold delCompareAndSwap
        rw [bind_ok h3]
        simp only [commitPrepared]
        rw [bind_ok h6]; rfl

/-- `del_compare_and_swap` on a handle whose core has no tree yet. -/
theorem delCAS_empty {s : St} (hlen : s.core.length ≤ 1) (key : Bytes) (cas : KeyValueData → Bool) :
    delCompareAndSwap key cas s = (.ok none, s) := by
  have hroot : getRoot false s = (.ok none, s) := by
    rcases Nat.lt_or_ge s.core.length 1 with h | h
    · exact getRoot_zero_false (by omega)
    · exact getRoot_one (by omega) false
  unfold delCompareAndSwap delPrepare
  rw [bind_run, bind_ok hroot]
  rfl

end Hyperbee
