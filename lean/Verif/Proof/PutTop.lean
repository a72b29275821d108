import Verif.Proof.Reorder
/-!
# Lookup and insertion on a handle with a tree
-/

namespace Hyperbee

/-! ## How many keys a tree has -/

theorem flatL_len (ks : List Nat) (ts : List T) (B : Nat) (hB : ∀ t ∈ ts, B ≤ t.flat.length) :
    ks.length + ts.length * B ≤ (flatL ks ts).length := by
  induction ts generalizing ks with
  | nil => simp [flatL_nil]
  | cons t ts ih =>
    have h1 := hB t (by simp)
    have h2 := fun ks => ih ks (fun t ht => hB t (by simp [ht]))
    cases ks with
    | nil =>
      have := h2 []
      simp only [flatL, List.length_append, List.length_cons, List.length_nil, Nat.add_mul] at *
      omega
    | cons k ks =>
      have := h2 ks
      simp only [flatL, List.length_append, List.length_cons, Nat.add_mul] at *
      omega

theorem GoodN.size {h : Nat} : ∀ {t : T}, GoodN false h t → 5 ^ (h + 1) ≤ t.flat.length + 1 := by
  induction h with
  | zero =>
    rintro ⟨r, ks, ts⟩ ⟨h1, h2⟩
    subst h1
    have := h2.2.1 rfl
    simp only [T.flat, flatL_nil]
    omega
  | succ h ih =>
    rintro ⟨r, ks, ts⟩ ⟨h1, h2, h3⟩
    have hk := h2.2.1 rfl
    have := flatL_len ks ts (5 ^ (h + 1) - 1) (fun t ht => by have := ih (h3 t ht); omega)
    simp only [T.flat]
    have hpos : 1 ≤ 5 ^ (h + 1) := Nat.one_le_pow _ _ (by omega)
    have h4 : 5 * (5 ^ (h + 1) - 1) ≤ ts.length * (5 ^ (h + 1) - 1) :=
      Nat.mul_le_mul_right _ (by omega)
    rw [Nat.pow_succ]
    omega

theorem GoodN.size_root {h : Nat} {t : T} (hg : GoodN true h t) :
    2 * 5 ^ h ≤ t.flat.length + 2 ∧ (0 < h → 2 * 5 ^ h ≤ t.flat.length + 1) := by
  cases h with
  | zero => simp
  | succ h =>
    obtain ⟨r, ks, ts⟩ := t
    obtain ⟨h1, h2, h3⟩ := hg
    have hk := h2.2.2 rfl (by omega)
    have := flatL_len ks ts (5 ^ (h + 1) - 1) (fun t ht => by have := (h3 t ht).size; omega)
    simp only [T.flat]
    have hpos : 1 ≤ 5 ^ (h + 1) := Nat.one_le_pow _ _ (by omega)
    have h4 : 2 * (5 ^ (h + 1) - 1) ≤ ts.length * (5 ^ (h + 1) - 1) :=
      Nat.mul_le_mul_right _ (by omega)
    omega

theorem lt_pow5 (h : Nat) : h < 5 ^ h := Nat.lt_pow_self (by omega)

theorem GoodN.height_le {h : Nat} {t : T} (hg : GoodN true h t) : h ≤ t.flat.length := by
  have := hg.size_root.1
  have := lt_pow5 h
  omega

theorem Srt.nodup {c : List Bytes} {l : List Nat} (h : Srt c l) : l.Nodup :=
  List.Pairwise.imp (fun {a b} hab e => by subst e; exact blt_irrefl _ hab) h

theorem TreeAt.flat_lt {c : List Bytes} {H : Nat} {t : T} (h : TreeAt c H t) :
    ∀ q ∈ t.flat, q < c.length := by
  intro q hq
  obtain ⟨b, hb⟩ := h.dfd q hq
  exact blockAt_lt hb

theorem TreeAt.len {c : List Bytes} {H : Nat} {t : T} (h : TreeAt c H t) :
    t.flat.length < c.length := by
  have h1 := h.srt.nodup
  have h2 : ∀ x ∈ 0 :: t.flat, x ∈ List.range c.length := by
    intro x hx
    rw [List.mem_range]
    rcases List.mem_cons.mp hx with e | hx
    · subst e; have := h.two; omega
    · exact h.flat_lt x hx
  have h3 : (0 :: t.flat).Nodup :=
    List.nodup_cons.mpr ⟨fun hm => absurd (h.pos 0 hm) (Nat.lt_irrefl _), h1⟩
  have := (List.subperm_of_subset h3 h2).length_le
  simp only [List.length_cons, List.length_range] at this
  omega

theorem TreeAt.height_lt {c : List Bytes} {H : Nat} {t : T} (h : TreeAt c H t) : H < c.length :=
  Nat.lt_of_le_of_lt h.good.height_le h.len

/-! ## The root and the search from it -/

theorem TreeAt.root_some {c : List Bytes} {H : Nat} {t : T} (h : TreeAt c H t) :
    nodeAt c ⟨c.length - 1, 0⟩ = some t.node := by
  rw [← h.ref]; exact h.rep.node

theorem getRoot_run {s : St} {H : Nat} {t : T} (ht : TreeAt s.core H t) (hw : SWF s) (ens : Bool) :
    ∃ a s', getRoot ens s = (.ok (some a), s') ∧ Ext s s' ∧ addrOf s' t.ref = some a := by
  obtain ⟨a, s', h1, h2, h3⟩ := loadRef_run hw ht.root_some
  refine ⟨a, s', ?_, h2, by rw [ht.ref]; exact h3⟩
  unfold getRoot
  rw [bind_ok (version_run s), if_neg (by have := ht.two; omega)]
  rw [bind_run] at h1 ⊢
  cases hb : blocksGet (s.core.length - 1) s with
  | mk r s1 =>
    rw [hb] at h1
    cases r with
    | error e => simp at h1
    | ok e =>
      simp only [] at h1 ⊢
      rw [bind_ok h1]
      rfl

theorem nearestNode_run (key : LimitValue) {s : St} {H : Nat} {t : T} {a : Nat}
    (ht : TreeAt s.core H t) (hw : SWF s) (hc : Coh s (· ∈ t.refs)) (ha : addrOf s t.ref = some a) :
    ∃ m a' i fs n s', nearestNode a key s = (.ok (m, (a', i) :: fs.map Fr.step), s') ∧ Ext s s' ∧
      Found s' key t m a' i fs n := by
  obtain ⟨m, a', i, fs, n, s', h1, h2, h3⟩ := nearestLoop_run key H (stepBound s.core) t s a []
    (by have := ht.height_lt; unfold stepBound; omega) hw ht.rep hc ht.good.shape ht.srt ht.dfd ha
  refine ⟨m, a', i, fs, n, s', ?_, h2, h3⟩
  unfold nearestNode
  rw [bind_ok (show descentFuel s = (.ok (stepBound s.core), s) from rfl), h1]
  simp

/-- Where `key` is, or would be, among the keys `l`. -/
structure Loc (c : List Bytes) (key : Bytes) (l : List Nat) (m : Option Nat) (pre post : List Nat) :
    Prop where
  eq : l = pre ++ m.toList ++ post
  lt : ∀ x ∈ pre, keyOf c x < key
  gt : ∀ x ∈ post, key < keyOf c x
  hit : ∀ q, m = some q → keyOf c q = key

theorem flatL_at {ka kb : List Nat} {ts : List T}
    (h : ts = [] ∨ ts.length = ka.length + kb.length + 2) :
    ∃ X Y, ∀ q, flatL (ka ++ q :: kb) ts = X ++ q :: Y := by
  rcases h with h | h
  · subst h; exact ⟨ka, kb, fun q => flatL_nil _⟩
  · refine ⟨flatL ka (ts.take (ka.length + 1)), flatL kb (ts.drop (ka.length + 1)), fun q => ?_⟩
    rw [← flatL_split (by simp; omega), List.take_append_drop]

theorem Kids.len {h n : Nat} {ts : List T} (hk : Kids h ts n) : ts = [] ∨ ts.length = n + 1 := by
  cases h with
  | zero => exact .inl hk
  | succ h => exact .inr hk.1

theorem srt_loc {c : List Bytes} {key : Bytes} {pre post : List Nat} {q : Nat}
    (hs : Srt c (pre ++ q :: post)) (hq : keyOf c q = key) :
    Loc c key (pre ++ q :: post) (some q) pre post := by
  unfold Srt at hs
  rw [List.pairwise_append, List.pairwise_cons] at hs
  obtain ⟨_, ⟨h2, _⟩, h3⟩ := hs
  refine ⟨by simp, fun x hx => ?_, fun x hx => ?_, fun q' e => by cases e; exact hq⟩
  · rw [← hq]; exact h3 x hx q (by simp)
  · rw [← hq]; exact h2 x hx

theorem cmp_finite (k b : Bytes) : (LimitValue.finite k).cmp b = bcmp k b := rfl

/-- A found key, in terms of the flattened tree. -/
theorem Found.loc {s : St} {key : Bytes} {H : Nat} {t : T} {m : Option Nat} {a i : Nat} {fs : List Fr}
    {n : T} (f : Found s (.finite key) t m a i fs n) (ht : TreeAt s.core H t) :
    ∃ ka kb pre post, n.keys = ka ++ m.toList ++ kb ∧ ka.length = i ∧
      Loc s.core key t.flat m pre post ∧
      ∀ q, preC fs ++ flatL (ka ++ q :: kb) n.kids ++ postC fs = pre ++ q :: post := by
  obtain ⟨h, hH, hctx, hgn⟩ := CtxGood.unplug (fun g hg => (f.frs g hg).1) (f.plug ▸ ht.good)
  have hflat : t.flat = preC fs ++ n.flat ++ postC fs := by
    rw [← f.plug, flat_plug (fun g hg => (f.frs g hg).1)]
  have hsrt := ht.srt
  obtain ⟨r, ks, ts⟩ := n
  rw [goodN_mk] at hgn
  cases m with
  | some q =>
    obtain ⟨h1, h2⟩ := f.hit q rfl
    simp only [T.keys] at h1
    obtain ⟨hlt, hget⟩ := List.getElem?_eq_some_iff.mp h1
    have hks : ks = ks.take i ++ q :: ks.drop (i + 1) := by
      rw [← hget, List.getElem_cons_drop, List.take_append_drop]
    obtain ⟨X, Y, hXY⟩ := flatL_at (ka := ks.take i) (kb := ks.drop (i + 1)) (ts := ts) (by
      rcases hgn.2.len with h | h
      · exact .inl h
      · right; simp; omega)
    refine ⟨ks.take i, ks.drop (i + 1), preC fs ++ X, Y ++ postC fs, ?_, by simp; omega, ?_, ?_⟩
    · simp only [T.keys, Option.toList_some]; rw [List.append_assoc]; exact hks
    · have hf : t.flat = (preC fs ++ X) ++ q :: (Y ++ postC fs) := by
        rw [hflat, T.flat]
        conv => lhs; rw [hks]
        rw [hXY]; simp
      rw [hf] at hsrt ⊢
      refine srt_loc hsrt ?_
      rw [cmp_finite, bcmp_eq_iff] at h2
      exact h2.symm
    · intro q; simp [T.kids, hXY]
  | none =>
    obtain ⟨h1, h2, h3⟩ := f.miss rfl
    simp only [T.kids] at h1
    subst h1
    have hle := f.le
    simp only [T.keys] at h2 h3 hle
    refine ⟨ks.take i, ks.drop i, preC fs ++ ks.take i, ks.drop i ++ postC fs, by simp [T.keys],
      by simp; omega, ⟨?_, ?_, ?_, by simp⟩, ?_⟩
    · rw [hflat, T.flat, flatL_nil]
      conv => lhs; rw [← List.take_append_drop i ks]
      simp only [Option.toList_none, List.append_nil, List.append_assoc]
    · intro x hx
      have := h2 x hx
      rw [cmp_finite, bcmp_gt_iff] at this
      exact this
    · intro x hx
      have := h3 x hx
      rw [cmp_finite, bcmp_lt_iff] at this
      exact this
    · intro q; simp [T.kids, flatL_nil]

/-! ## `get` -/

theorem Found.node {s : St} {key : LimitValue} {t : T} {m : Option Nat} {a i : Nat} {fs : List Fr}
    {n : T} (f : Found s key t m a i fs n) (hrep : Rep (nodeAt s.core) t) (hc : Coh s (· ∈ t.refs)) :
    s.heap[a]? = some n.node ∧ (∀ r ∈ n.refs, r ∈ t.refs) ∧ Rep (nodeAt s.core) n := by
  have hsub : ∀ (fs : List Fr) (n : T), Rep (nodeAt s.core) (Hyperbee.plug fs n) →
      (∀ r ∈ n.refs, r ∈ (Hyperbee.plug fs n).refs) ∧ Rep (nodeAt s.core) n := by
    intro fs
    induction fs with
    | nil => intro n h; exact ⟨fun r hr => hr, h⟩
    | cons f fs ih =>
      intro n h
      obtain ⟨h1, h2⟩ := ih _ h
      refine ⟨fun r hr => h1 r ?_, h2.kids n (by simp [T.kids])⟩
      simp only [T.refs, refsL_append, refsL, List.mem_cons, List.mem_append]
      exact .inr (.inr (.inl hr))
  obtain ⟨h1, h2⟩ := hsub fs n (f.plug ▸ hrep)
  rw [f.plug] at h1
  exact ⟨by rw [hc n.ref (h1 _ (T.ref_mem_refs _)) a f.addr]; exact h2.node, h1, h2⟩

theorem get_run {s : St} {H : Nat} {t : T} (ht : TreeAt s.core H t) (hw : SWF s)
    (hc : Coh s (· ∈ t.refs)) (key : Bytes) :
    ∃ m pre post s', get key s = (.ok (m.map fun q => (q, valOf s.core q)), s') ∧ Ext s s' ∧
      Loc s.core key t.flat m pre post := by
  obtain ⟨a, s1, h1, e1, ha⟩ := getRoot_run ht hw false
  obtain ⟨m, a', i, fs, n, s2, h2, e2, hf⟩ := nearestNode_run (.finite key) (s := s1) (a := a)
    (by rw [e1.core]; exact ht) e1.wf (e1.coh hw hc) ha
  have e12 := e1.trans e2
  have ht2 : TreeAt s2.core H t := by rw [e12.core]; exact ht
  obtain ⟨ka, kb, pre, post, hk1, hk2, hloc, _⟩ := hf.loc ht2
  rw [e12.core] at hloc
  unfold get
  rw [bind_ok h1]
  simp only []
  rw [bind_ok h2]
  simp only []
  cases m with
  | none =>
    exact ⟨none, pre, post, s2, rfl, e12, hloc⟩
  | some q =>
    simp only [Option.isSome_some, if_true, List.head?_cons, orPanic_some, pure_bind_run]
    obtain ⟨hn, _, _⟩ := hf.node ht2.rep (e12.coh hw hc)
    obtain ⟨hq1, _⟩ := hf.hit q rfl
    obtain ⟨b, hb⟩ := ht2.dfd q (by rw [hloc.eq]; simp)
    obtain ⟨s3, h3, e3⟩ := getKeyValue_run e2.wf hn (i := i) (q := q) hq1 hb
    rw [bind_ok h3]
    refine ⟨some q, pre, post, s3, ?_, e12.trans e3, hloc⟩
    simp [e12.core]

/-! ## Taking ownership of the path -/

theorem ctxRefs_mem {g : Fr} {fs : List Fr} (hg : g ∈ fs) :
    ∀ r ∈ refsL g.A ++ refsL g.B, r ∈ ctxRefs fs := by
  intro r hr
  induction fs with
  | nil => simp at hg
  | cons x fs ihx =>
    simp only [ctxRefs, List.mem_append]
    rcases List.mem_cons.mp hg with e | hg
    · subst e; exact .inl (List.mem_append.mp hr)
    · exact .inr (ihx hg)

theorem plug_count : ∀ (fs : List Fr) (n : T) (x : Child),
    (n.refs ++ ctxRefs fs).count x ≤ (plug fs n).refs.count x := by
  intro fs
  induction fs with
  | nil => intro n x; simp [ctxRefs, plug]
  | cons f fs ih =>
    intro n x
    refine Nat.le_trans ?_ (ih (.mk f.ref (f.ka ++ f.kb) (f.A ++ n :: f.B)) x)
    revert x
    count_tac

theorem plug_refs {fs : List Fr} {n : T} {r : Child} (h : r ∈ n.refs) : r ∈ (plug fs n).refs := by
  have h1 := plug_count fs n r
  have h2 : 0 < (n.refs ++ ctxRefs fs).count r := List.count_pos_iff.mpr (by simp [h])
  exact List.count_pos_iff.mp (by omega)

theorem plug_rep {N : Child → Option Node} {fs : List Fr} {n : T} (h : Rep N (plug fs n)) : Rep N n := by
  induction fs generalizing n with
  | nil => exact h
  | cons f fs ih => exact (ih h).kids n (by simp [T.kids])

theorem ctx_own {c : List Bytes} {io : Io} {s : St} : ∀ (fs : List Fr) (R : Child → Prop) (n : T)
    (as : List Nat),
    Op c io s R as → Rep (nodeAt c) (plug fs n) → (plug fs n).refs.Nodup →
    (∀ r ∈ (plug fs n).refs, R r) → (∀ f ∈ fs, addrOf s f.ref = some f.a) →
    ∃ R', Op c io s R' (fs.map (·.a) ++ as) ∧ (∀ f ∈ fs, FrH c R' s f) ∧
      (∀ r ∈ n.refs, R' r) ∧ (n.refs ++ ctxRefs fs).Nodup ∧ (∀ r, R' r → R r) ∧
      Rep (nodeAt c) n ∧ (∀ r, R r → r ∉ (plug fs n).refs → R' r) := by
  intro fs
  induction fs with
  | nil =>
    intro R n as hop hrep hnd hR _
    exact ⟨R, by simpa using hop, by simp, hR, by simpa [ctxRefs, plug] using hnd, fun _ h => h, hrep, fun _ h _ => h⟩
  | cons f fs ih =>
    intro R n as hop hrep hnd hR haddr
    obtain ⟨R1, h1, h2, h3, h4, h5, h6, h7⟩ := ih R (.mk f.ref (f.ka ++ f.kb) (f.A ++ n :: f.B)) as hop hrep hnd hR
      (fun g hg => haddr g (by simp [hg]))
    have hfa := haddr f (by simp)
    have hR1 : R1 f.ref := h3 _ (by simp [T.refs])
    have hop2 := h1.take hR1 hfa
    have hnf : f.ref ∉ refsL (f.A ++ n :: f.B) ++ ctxRefs fs := by
      simp only [T.refs, List.cons_append, List.nodup_cons] at h4
      exact h4.1
    simp only [refsL_append, refsL, List.mem_append, not_or] at hnf
    obtain ⟨⟨hnA, hnn, hnB⟩, hnc⟩ := hnf
    have hin : ∀ t ∈ f.A ++ n :: f.B, ∀ r ∈ t.refs, R1 r ∧ r ≠ f.ref := by
      intro t ht r hr
      refine ⟨h3 r ?_, ?_⟩
      · simp only [T.refs, List.mem_cons]
        exact .inr (mem_refsL.mpr ⟨t, ht, hr⟩)
      · rintro rfl
        simp only [List.mem_append, List.mem_cons] at ht
        rcases ht with ht | e | ht
        · exact hnA (mem_refsL.mpr ⟨t, ht, hr⟩)
        · subst e; exact hnn hr
        · exact hnB (mem_refsL.mpr ⟨t, ht, hr⟩)
    refine ⟨fun r => R1 r ∧ r ≠ f.ref, by simpa using hop2, ?_, ?_, ?_, fun r hr => h5 r hr.1,
      h6.kids n (by simp [T.kids]), ?_⟩
    · intro g hg
      rcases List.mem_cons.mp hg with e | hg
      · subst e
        refine ⟨⟨n.ref, ?_⟩, ?_, ?_⟩
        · rw [h1.coh g.ref hR1 g.a hfa, h1.core]
          simpa [T.node, T.keys, T.kids, T.ref] using h6.node
        · intro t ht; exact ⟨h6.kids t (by simp [T.kids, ht]), hin t (by simp [ht])⟩
        · intro t ht; exact ⟨h6.kids t (by simp [T.kids, ht]), hin t (by simp [ht])⟩
      · obtain ⟨g1, g2, g3⟩ := h2 g hg
        have hcg := ctxRefs_mem hg
        refine ⟨g1, fun t ht => ⟨(g2 t ht).1, fun r hr => ⟨(g2 t ht).2 r hr, ?_⟩⟩,
          fun t ht => ⟨(g3 t ht).1, fun r hr => ⟨(g3 t ht).2 r hr, ?_⟩⟩⟩
        · rintro rfl
          exact hnc (hcg _ (List.mem_append.mpr (.inl (mem_refsL.mpr ⟨t, ht, hr⟩))))
        · rintro rfl
          exact hnc (hcg _ (List.mem_append.mpr (.inr (mem_refsL.mpr ⟨t, ht, hr⟩))))
    · intro r hr; exact hin n (by simp) r hr
    · refine nodup_of_count_le ?_ h4
      count_tac
    · intro r hr hn
      refine ⟨h7 r hr hn, ?_⟩
      rintro rfl
      exact hn (plug_refs (fs := fs) (by simp [T.refs]))

end Hyperbee
