import Verif.Proof.PutRun
/-!
# Deletion: repairing nodes that have too few keys
-/

namespace Hyperbee

theorem St.wr_get {s : St} {a : Nat} (h : a < s.heap.length) (n : Node) (b : Nat) :
    (s.wr a n).heap[b]? = if b = a then some n else s.heap[b]? := by
  split
  · rename_i e; subst e; exact St.wr_self h n
  · rename_i e; exact St.wr_other (Ne.symm e) n

theorem flat_pair {h : Nat} {lks rks : List Nat} {lts rts : List T} (hl : Kids h lts lks.length)
    (hr : Kids h rts rks.length) (k : Nat) :
    flatL (lks ++ k :: rks) (lts ++ rts) = flatL lks lts ++ k :: flatL rks rts := by
  cases h with
  | zero => simp only [Kids] at hl hr; subst hl; subst hr; simp [flatL_nil]
  | succ h => exact flatL_split hl.1 k rks rts

theorem flat_father {ka kb : List Nat} {A B : List T} (hA : A.length = ka.length)
    (hB : B.length = kb.length) (k : Nat) (l r : T) :
    flatL (ka ++ k :: kb) (A ++ l :: r :: B) = preF ka A ++ (l.flat ++ k :: r.flat) ++ postF kb B := by
  rw [flatL_pre hA, flatL, flatL_post hB]; simp

/-- Two neighbouring children of `fa`, both owned, with the key `k` between them. -/
structure Pair (c : List Bytes) (io : Io) (s : St) (R : Child → Prop) (ch : Changes) (Pv : List Node)
    (fs : List Fr) (h fa : Nat) (ka kb : List Nat) (A B : List T) (k la : Nat) (lks : List Nat)
    (lts : List T) (ra : Nat) (rks : List Nat) (rts : List T) : Prop where
  op : Op c io s R (la :: ra :: fa :: (fs.map (·.a) ++ ch.nodes))
  seq : ch.seq = c.length
  pend : PendH s ch.nodes Pv
  father : ∃ x y, s.heap[fa]? = some ⟨ka ++ k :: kb, A.map T.ref ++ x :: y :: B.map T.ref⟩
  lheap : s.heap[la]? = some ⟨lks, lts.map T.ref⟩
  rheap : s.heap[ra]? = some ⟨rks, rts.map T.ref⟩
  lkids : Kids h lts lks.length
  rkids : Kids h rts rks.length
  rep : ∀ t ∈ lts ++ rts, RepN c Pv t
  live : ∀ r ∈ refsL (lts ++ rts), r.seq ≠ c.length → R r
  okA : A.length = ka.length
  okB : B.length = kb.length
  hA : ∀ t ∈ A, Rep (nodeAt c) t ∧ (∀ r ∈ t.refs, R r) ∧ GoodN false h t
  hB : ∀ t ∈ B, Rep (nodeAt c) t ∧ (∀ r ∈ t.refs, R r) ∧ GoodN false h t
  frs : ∀ f ∈ fs, FrH c R s f
  nodup : (refsL (lts ++ rts) ++ (refsL A ++ refsL B ++ ctxRefs fs)).Nodup

/-- The father after a repair step. -/
structure Mended (c : List Bytes) (io : Io) (s : St) (R : Child → Prop) (ch : Changes)
    (Pv : List Node) (fs : List Fr) (h fa : Nat) (fks : List Nat) (fts : List T) : Prop where
  op : Op c io s R (fa :: (fs.map (·.a) ++ ch.nodes))
  seq : ch.seq = c.length
  pend : PendH s ch.nodes Pv
  heap : s.heap[fa]? = some ⟨fks, fts.map T.ref⟩
  kids : Kids (h + 1) fts fks.length
  rep : ∀ t ∈ fts, RepN c Pv t
  live : ∀ r ∈ refsL fts, r.seq ≠ c.length → R r
  frs : ∀ f ∈ fs, FrH c R s f
  nodup : (refsL fts ++ ctxRefs fs).Nodup
  ne : Pv ≠ []
  single : ∀ t, fts = [t] → t.ref = ⟨c.length, Pv.length - 1⟩

theorem Pair.mend2 {c : List Bytes} {io : Io} {s : St} {R : Child → Prop} {ch : Changes}
    {Pv : List Node} {fs : List Fr} {h fa : Nat} {ka kb : List Nat} {A B : List T} {k la : Nat}
    {lks : List Nat} {lts : List T} {ra : Nat} {rks : List Nat} {rts : List T}
    (p : Pair c io s R ch Pv fs h fa ka kb A B k la lks lts ra rks rts)
    {s' : St} {as2 : List Nat} {Pn : List Node} {oL oR k' : Nat} {lks' rks' : List Nat}
    {lts' rts' : List T}
    (hop : Op c io s' R (fa :: (fs.map (·.a) ++ (ch.nodes ++ as2))))
    (hp : PendH s' (ch.nodes ++ as2) (Pv ++ Pn))
    (hL : (Pv ++ Pn)[oL]? = some ⟨lks', lts'.map T.ref⟩)
    (hR : (Pv ++ Pn)[oR]? = some ⟨rks', rts'.map T.ref⟩) (hLR : oL ≠ oR) (hoL : Pv.length ≤ oL)
    (hoR : Pv.length ≤ oR)
    (hfa : s'.heap[fa]? = some ⟨ka ++ k' :: kb,
      A.map T.ref ++ ⟨c.length, oL⟩ :: ⟨c.length, oR⟩ :: B.map T.ref⟩)
    (hks : lks' ++ k' :: rks' = lks ++ k :: rks) (hts : lts' ++ rts' = lts ++ rts)
    (hkl : Kids h lts' lks'.length) (hkr : Kids h rts' rks'.length)
    (hfl : 4 ≤ lks'.length ∧ lks'.length ≤ 8) (hfr : 4 ≤ rks'.length ∧ rks'.length ≤ 8)
    (hfrs : ∀ f ∈ fs, FrH c R s' f) :
    ∃ fts, Mended c io s' R { ch with nodes := ch.nodes ++ as2 } (Pv ++ Pn) fs h fa (ka ++ k' :: kb) fts ∧
      flatL (ka ++ k' :: kb) fts
        = preF ka A ++ (flatL lks lts ++ k :: flatL rks rts) ++ postF kb B := by
  let L : T := .mk ⟨c.length, oL⟩ lks' lts'
  let Rt : T := .mk ⟨c.length, oR⟩ rks' rts'
  have hrep' : ∀ t ∈ lts' ++ rts', RepN c Pv t := by rw [hts]; exact p.rep
  refine ⟨A ++ L :: Rt :: B, ⟨hop, p.seq, hp, ?_, ?_, ?_, ?_, hfrs, ?_, ?_, ?_⟩, ?_⟩
  · rw [hfa]; simp [L, Rt, T.ref]
  · simp only [Kids]
    refine ⟨by simp [p.okA, p.okB]; omega, fun t ht => ?_⟩
    simp only [List.mem_append, List.mem_cons] at ht
    rcases ht with ht | e | e | ht
    · exact (p.hA t ht).2.2
    · subst e; exact goodN_mk.mpr ⟨⟨hfl.2, fun _ => hfl.1, by simp⟩, hkl⟩
    · subst e; exact goodN_mk.mpr ⟨⟨hfr.2, fun _ => hfr.1, by simp⟩, hkr⟩
    · exact (p.hB t ht).2.2
  · intro t ht
    simp only [List.mem_append, List.mem_cons] at ht
    rcases ht with ht | e | e | ht
    · exact (p.hA t ht).1.old _
    · subst e; exact .new hL fun t ht => (hrep' t (by simp [ht])).append _
    · subst e; exact .new hR fun t ht => (hrep' t (by simp [ht])).append _
    · exact (p.hB t ht).1.old _
  · intro r hr hne
    simp only [refsL_append, refsL, T.refs, L, Rt, List.mem_append, List.mem_cons] at hr
    have hin : r ∈ refsL lts' ++ refsL rts' → R r := fun h =>
      p.live r (by rw [← hts, refsL_append]; exact h) hne
    rcases hr with hr | (e | hr) | (e | hr) | hr
    · obtain ⟨t, ht, hr⟩ := mem_refsL.mp hr; exact (p.hA t ht).2.1 r hr
    · subst e; exact absurd rfl hne
    · exact hin (List.mem_append.mpr (.inl hr))
    · subst e; exact absurd rfl hne
    · exact hin (List.mem_append.mpr (.inr hr))
    · obtain ⟨t, ht, hr⟩ := mem_refsL.mp hr; exact (p.hB t ht).2.1 r hr
  · have hnd := p.nodup
    rw [← hts] at hnd
    have hfreshA : ∀ o, Pv.length ≤ o → (⟨c.length, o⟩ : Child) ∉
        refsL (lts' ++ rts') ++ (refsL A ++ refsL B ++ ctxRefs fs) := by
      intro o ho hm
      simp only [List.mem_append] at hm
      rcases hm with hm | (hm | hm) | hm
      · exact fresh_refsL hrep' ho hm
      · obtain ⟨t, ht, hr⟩ := mem_refsL.mp hm
        exact absurd ((p.hA t ht).1.old_lt _ hr) (Nat.lt_irrefl _)
      · obtain ⟨t, ht, hr⟩ := mem_refsL.mp hm
        exact absurd ((p.hB t ht).1.old_lt _ hr) (Nat.lt_irrefl _)
      · exact fresh_ctx hfrs _ hm
    refine nodup_of_count_le (l := ⟨c.length, oL⟩ :: ⟨c.length, oR⟩ ::
      (refsL (lts' ++ rts') ++ (refsL A ++ refsL B ++ ctxRefs fs))) ?_ ?_
    · simp only [L, Rt]; count_tac
    · rw [List.nodup_cons, List.nodup_cons]
      refine ⟨?_, hfreshA _ hoR, hnd⟩
      rw [List.mem_cons, not_or]
      exact ⟨by simp [hLR], hfreshA _ hoL⟩
  · intro e
    rw [e] at hL; simp at hL
  · intro t ht
    have := congrArg List.length ht
    simp only [List.length_append, List.length_cons, List.length_nil] at this
    omega
  · rw [flat_father p.okA p.okB]
    simp only [L, Rt, T.flat]
    rw [← flat_pair hkl hkr, hks, hts, flat_pair p.lkids p.rkids]

theorem Kids.append {h : Nat} {lts rts : List T} {a b : Nat} (hl : Kids h lts a) (hr : Kids h rts b) :
    Kids h (lts ++ rts) (a + b + 1) := by
  cases h with
  | zero => simp only [Kids] at *; simp [hl, hr]
  | succ h =>
    simp only [Kids] at *
    refine ⟨by simp; omega, fun t ht => ?_⟩
    rcases List.mem_append.mp ht with ht | ht
    · exact hl.2 t ht
    · exact hr.2 t ht

theorem Pair.mend1 {c : List Bytes} {io : Io} {s : St} {R : Child → Prop} {ch : Changes}
    {Pv : List Node} {fs : List Fr} {h fa : Nat} {ka kb : List Nat} {A B : List T} {k la : Nat}
    {lks : List Nat} {lts : List T} {ra : Nat} {rks : List Nat} {rts : List T}
    (p : Pair c io s R ch Pv fs h fa ka kb A B k la lks lts ra rks rts) {s' : St}
    (hop : Op c io s' R (fa :: (fs.map (·.a) ++ (ch.nodes ++ [la]))))
    (hp : PendH s' ch.nodes Pv)
    (hL : s'.heap[la]? = some ⟨lks ++ k :: rks, (lts ++ rts).map T.ref⟩)
    (hfa : s'.heap[fa]? = some ⟨ka ++ kb, A.map T.ref ++ ⟨c.length, Pv.length⟩ :: B.map T.ref⟩)
    (hfl : 3 ≤ lks.length + rks.length ∧ lks.length + rks.length ≤ 7)
    (hfrs : ∀ f ∈ fs, FrH c R s' f) :
    ∃ fts Pn, Mended c io s' R { ch with nodes := ch.nodes ++ [la] } (Pv ++ [Pn]) fs h fa (ka ++ kb) fts ∧
      flatL (ka ++ kb) fts = preF ka A ++ (flatL lks lts ++ k :: flatL rks rts) ++ postF kb B := by
  let L : T := .mk ⟨c.length, Pv.length⟩ (lks ++ k :: rks) (lts ++ rts)
  refine ⟨A ++ L :: B, _, ⟨hop, p.seq, hp.append hL, ?_, ?_, ?_, ?_, hfrs, ?_, ?_, ?_⟩, ?_⟩
  · rw [hfa]; simp [L, T.ref]
  · simp only [Kids]
    refine ⟨by simp [p.okA, p.okB]; omega, fun t ht => ?_⟩
    simp only [List.mem_append, List.mem_cons] at ht
    rcases ht with ht | e | ht
    · exact (p.hA t ht).2.2
    · subst e
      have := p.lkids.append p.rkids
      refine goodN_mk.mpr ⟨⟨?_, fun _ => ?_, by simp⟩, ?_⟩
      · simp; omega
      · simp; omega
      · rw [show (lks ++ k :: rks).length = lks.length + rks.length + 1 by simp; omega]; exact this
    · exact (p.hB t ht).2.2
  · intro t ht
    simp only [List.mem_append, List.mem_cons] at ht
    rcases ht with ht | e | ht
    · exact (p.hA t ht).1.old _
    · subst e; exact .new (by simp) fun t ht => (p.rep t ht).append _
    · exact (p.hB t ht).1.old _
  · intro r hr hne
    simp only [refsL_append, refsL, T.refs, L, List.mem_append, List.mem_cons] at hr
    rcases hr with hr | (e | hr) | hr
    · obtain ⟨t, ht, hr⟩ := mem_refsL.mp hr; exact (p.hA t ht).2.1 r hr
    · subst e; exact absurd rfl hne
    · exact p.live r (by rw [refsL_append]; exact List.mem_append.mpr hr) hne
    · obtain ⟨t, ht, hr⟩ := mem_refsL.mp hr; exact (p.hB t ht).2.1 r hr
  · have hnd := p.nodup
    have hfresh : (⟨c.length, Pv.length⟩ : Child) ∉
        refsL (lts ++ rts) ++ (refsL A ++ refsL B ++ ctxRefs fs) := by
      intro hm
      simp only [List.mem_append] at hm
      rcases hm with hm | (hm | hm) | hm
      · exact fresh_refsL p.rep (Nat.le_refl _) hm
      · obtain ⟨t, ht, hr⟩ := mem_refsL.mp hm
        exact absurd ((p.hA t ht).1.old_lt _ hr) (Nat.lt_irrefl _)
      · obtain ⟨t, ht, hr⟩ := mem_refsL.mp hm
        exact absurd ((p.hB t ht).1.old_lt _ hr) (Nat.lt_irrefl _)
      · exact fresh_ctx hfrs _ hm
    refine nodup_of_count_le (l := ⟨c.length, Pv.length⟩ ::
      (refsL (lts ++ rts) ++ (refsL A ++ refsL B ++ ctxRefs fs))) ?_ (List.nodup_cons.mpr ⟨hfresh, hnd⟩)
    simp only [L]; count_tac
  · simp
  · intro t ht
    cases A with
    | nil =>
      simp only [List.nil_append, List.cons.injEq] at ht
      rw [← ht.1]; simp [L, T.ref]
    | cons _ _ => have := congrArg List.length ht; simp at this
  · rw [flatL_hole p.okA p.okB]
    simp only [L, T.flat, flat_pair p.lkids p.rkids]

/-! ## Merging two neighbours -/

/-- `Side::maybe_merge` after the sibling was found, src/del.rs:244-284. -/
def mergeBody (father lhs rhs keyIndex rightChildIndex : Nat) (ch : Changes) : M (Option Changes) := do
  let n ← readNode father
  let (fromFather, ks) ← orPanic "del.rs:256 keys.remove" (vecRemove n.keys keyIndex)
  writeNode father { n with keys := ks }
  let n ← readNode father
  let cs ← orPanic "del.rs:263 children.splice"
    (vecSplice n.children rightChildIndex (rightChildIndex + 1) [])
  writeNode father { n with children := cs }
  let ln ← readNode lhs
  let nLeftKeys := ln.keys.length
  let rn ← readNode rhs
  writeNode rhs { rn with keys := [] }
  let ln ← readNode lhs
  let ks ← orPanic "del.rs:272 keys.splice"
    (vecSplice ln.keys nLeftKeys nLeftKeys (fromFather :: rn.keys))
  writeNode lhs { ln with keys := ks }
  let ln ← readNode lhs
  Side.moveChildren lhs rhs ln.children.length
  let (ch, leftRef) := ch.addNode lhs
  let n ← readNode father
  let cs ← orPanic "del.rs:283 children.splice"
    (vecSplice n.children (rightChildIndex - 1) rightChildIndex [leftRef])
  writeNode father { n with children := cs }
  pure (some ch)

theorem maybeMerge_left (father i d : Nat) (ch : Changes) :
    Side.left.maybeMerge father (i + 1) d ch = (do
      let donor ← getChild father i
      mergeBody father donor d i (i + 1) ch) := rfl

theorem maybeMerge_left_zero (father d : Nat) (ch : Changes) :
    Side.left.maybeMerge father 0 d ch = pure none := rfl

theorem vecRemove_mid (A B : List α) (x : α) :
    vecRemove (A ++ x :: B) A.length = some (x, A ++ B) := by
  simp [vecRemove]

theorem vecSplice_end (l new : List α) : vecSplice l l.length l.length new = some (l ++ new) := by
  simp [vecSplice]

theorem wr_wr (s : St) (a : Nat) (n m : Node) : (s.wr a n).wr a m = s.wr a m := by
  simp [St.wr]

theorem mergeBody_run {s : St} {fa la ra : Nat} {ka kb : List Nat} {k : Nat} {A B : List Child}
    {x y : Child} {lks rks : List Nat} {lcs rcs : List Child}
    (h1 : s.heap[fa]? = some ⟨ka ++ k :: kb, A ++ x :: y :: B⟩) (hA : A.length = ka.length)
    (h2 : s.heap[la]? = some ⟨lks, lcs⟩) (h3 : s.heap[ra]? = some ⟨rks, rcs⟩)
    (n1 : la ≠ fa) (n2 : ra ≠ fa) (n3 : la ≠ ra) (ch : Changes) :
    ∃ s', mergeBody fa la ra ka.length (ka.length + 1) ch s
        = (.ok (some (ch.addNode la).1), s') ∧
      s'.heap[fa]? = some ⟨ka ++ kb, A ++ (ch.addNode la).2 :: B⟩ ∧
      s'.heap[la]? = some ⟨lks ++ k :: rks, lcs ++ rcs⟩ ∧
      (∀ b, b ≠ fa → b ≠ la → b ≠ ra → s'.heap[b]? = s.heap[b]?) ∧
      (∀ c io R as, Op c io s R as → fa ∈ as → la ∈ as → ra ∈ as → Op c io s' R as) := by
  have l1 := (List.getElem?_eq_some_iff.mp h1).1
  have l2 := (List.getElem?_eq_some_iff.mp h2).1
  have l3 := (List.getElem?_eq_some_iff.mp h3).1
  unfold mergeBody
  rw [bind_ok (readNode_some h1)]
  simp only [vecRemove_mid, orPanic_some, pure_bind_run]
  rw [bind_ok (writeNode_wr _ _ _), bind_ok (readNode_some (St.wr_self l1 _))]
  have hsp : vecSplice (A ++ x :: y :: B) (ka.length + 1) (ka.length + 1 + 1) [] = some (A ++ x :: B) := by
    have := vecSplice_rep (A ++ [x]) B y []
    simpa [hA] using this
  simp only [hsp, orPanic_some, pure_bind_run]
  rw [bind_ok (writeNode_wr _ _ _), wr_wr]
  generalize hs1 : s.wr fa ⟨ka ++ kb, A ++ x :: B⟩ = s1
  have g1 : ∀ b, s1.heap[b]? = if b = fa then some ⟨ka ++ kb, A ++ x :: B⟩ else s.heap[b]? := by
    intro b; rw [← hs1, St.wr_get l1]
  have len1 : s1.heap.length = s.heap.length := by rw [← hs1, St.wr_len]
  rw [bind_ok (readNode_some (show s1.heap[la]? = _ by rw [g1, if_neg n1]; exact h2))]
  dsimp only
  rw [bind_ok (readNode_some (show s1.heap[ra]? = _ by rw [g1, if_neg n2]; exact h3)),
    bind_ok (writeNode_wr _ _ _)]
  generalize hs2 : s1.wr ra ⟨[], rcs⟩ = s2
  have g2 : ∀ b, s2.heap[b]? = if b = ra then some ⟨[], rcs⟩ else s1.heap[b]? := by
    intro b; rw [← hs2, St.wr_get (by omega)]
  have len2 : s2.heap.length = s.heap.length := by rw [← hs2, St.wr_len, len1]
  rw [bind_ok (readNode_some (show s2.heap[la]? = _ by rw [g2, if_neg n3, g1, if_neg n1]; exact h2))]
  simp only [vecSplice_end, orPanic_some, pure_bind_run]
  rw [bind_ok (writeNode_wr _ _ _)]
  generalize hs3 : s2.wr la ⟨lks ++ k :: rks, lcs⟩ = s3
  have g3 : ∀ b, s3.heap[b]? = if b = la then some ⟨lks ++ k :: rks, lcs⟩ else s2.heap[b]? := by
    intro b; rw [← hs3, St.wr_get (by omega)]
  have len3 : s3.heap.length = s.heap.length := by rw [← hs3, St.wr_len, len2]
  rw [bind_ok (readNode_some (show s3.heap[la]? = _ by rw [g3, if_pos rfl]))]
  have hmv : Side.moveChildren la ra lcs.length s3 = (.ok (), (s3.wr ra ⟨[], []⟩).wr la ⟨lks ++ k :: rks, lcs ++ rcs⟩) := by
    unfold Side.moveChildren
    rw [if_neg n3, bind_ok (readNode_some (show s3.heap[ra]? = _ by
      rw [g3, if_neg (Ne.symm n3), g2, if_pos rfl])), bind_ok (writeNode_wr _ _ _),
      bind_ok (readNode_some (show (s3.wr ra ⟨[], []⟩).heap[la]? = _ by
        rw [St.wr_other n3.symm, g3, if_pos rfl]))]
    simp only [vecSplice_end, orPanic_some, pure_bind_run]
    rfl
  rw [bind_ok hmv]
  generalize hs4 : s3.wr ra ⟨[], []⟩ = s4
  have g4 : ∀ b, s4.heap[b]? = if b = ra then some ⟨[], []⟩ else s3.heap[b]? := by
    intro b; rw [← hs4, St.wr_get (by omega)]
  have len4 : s4.heap.length = s.heap.length := by rw [← hs4, St.wr_len, len3]
  generalize hs5 : s4.wr la ⟨lks ++ k :: rks, lcs ++ rcs⟩ = s5
  have g5 : ∀ b, s5.heap[b]? = if b = la then some ⟨lks ++ k :: rks, lcs ++ rcs⟩ else s4.heap[b]? := by
    intro b; rw [← hs5, St.wr_get (by omega)]
  have len5 : s5.heap.length = s.heap.length := by rw [← hs5, St.wr_len, len4]
  have hf5 : s5.heap[fa]? = some ⟨ka ++ kb, A ++ x :: B⟩ := by
    rw [g5, if_neg (Ne.symm n1), g4, if_neg (Ne.symm n2), g3, if_neg (Ne.symm n1), g2,
      if_neg (Ne.symm n2), g1, if_pos rfl]
  rw [bind_ok (readNode_some hf5)]
  have hsp2 : vecSplice (A ++ x :: B) (ka.length + 1 - 1) (ka.length + 1) [(ch.addNode la).2]
      = some (A ++ (ch.addNode la).2 :: B) := by
    have := vecSplice_rep A B x [(ch.addNode la).2]
    simpa [hA] using this
  simp only [hsp2, orPanic_some, pure_bind_run]
  rw [bind_ok (writeNode_wr _ _ _)]
  refine ⟨_, rfl, ?_, ?_, ?_, ?_⟩
  · rw [St.wr_self (by omega)]
  · rw [St.wr_other (Ne.symm n1), g5, if_pos rfl]
  · intro b b1 b2 b3
    rw [St.wr_other (Ne.symm b1), g5, if_neg b2, g4, if_neg b3, g3, if_neg b2, g2, if_neg b3, g1,
      if_neg b1]
  · intro c io R as hop m1 m2 m3
    refine Op.write ?_ m1 _
    rw [← hs5]; refine Op.write ?_ m2 _
    rw [← hs4]; refine Op.write ?_ m3 _
    rw [← hs3]; refine Op.write ?_ m2 _
    rw [← hs2]; refine Op.write ?_ m3 _
    rw [← hs1]; exact Op.write hop m1 _

theorem Pair.merge {c : List Bytes} {io : Io} {s : St} {R : Child → Prop} {ch : Changes}
    {Pv : List Node} {fs : List Fr} {h fa : Nat} {ka kb : List Nat} {A B : List T} {k la : Nat}
    {lks : List Nat} {lts : List T} {ra : Nat} {rks : List Nat} {rts : List T}
    (p : Pair c io s R ch Pv fs h fa ka kb A B k la lks lts ra rks rts)
    (hfl : 3 ≤ lks.length + rks.length ∧ lks.length + rks.length ≤ 7) :
    ∃ s' ch' fts Pn, mergeBody fa la ra ka.length (ka.length + 1) ch s = (.ok (some ch'), s') ∧
      Mended c io s' R ch' (Pv ++ [Pn]) fs h fa (ka ++ kb) fts ∧ ch'.key = ch.key ∧ ch'.value = ch.value ∧
      flatL (ka ++ kb) fts = preF ka A ++ (flatL lks lts ++ k :: flatL rks rts) ++ postF kb B := by
  obtain ⟨x, y, hf⟩ := p.father
  have hnod := p.op.nodup
  simp only [List.nodup_cons, List.mem_cons, List.mem_append, List.mem_map, not_or, not_exists,
    not_and] at hnod
  obtain ⟨⟨n1, n2, n3, n4⟩, ⟨n5, n6, n7⟩, ⟨n8, n9⟩, _⟩ := hnod
  obtain ⟨s', h1, h2, h3, h4, h5⟩ := mergeBody_run hf (by simp [p.okA]) p.lheap p.rheap n2 n5 n1 ch
  have hadd : ch.addNode la = ({ ch with nodes := ch.nodes ++ [la] }, ⟨c.length, Pv.length⟩) := by
    simp [Changes.addNode, p.seq, p.pend.len]
  rw [hadd] at h1 h2
  obtain ⟨fts, Pn, hm, hfl⟩ := p.mend1 (s' := s')
    ((h5 _ _ _ _ p.op (by simp) (by simp) (by simp)).sub (by count_tac))
    (p.pend.same fun a ha => h4 a (fun e => n9 (e ▸ ha)) (fun e => n4 (e ▸ ha)) (fun e => n7 (e ▸ ha)))
    (by rw [h3]; simp) h2 hfl
    (fun f hf => (p.frs f hf).same (h4 f.a (fun e => n8 f hf e) (fun e => n3 f hf e) (fun e => n6 f hf e)))
  exact ⟨s', _, fts, Pn, h1, hm, rfl, rfl, hfl⟩

/-! ## Rotating a key from a neighbour -/

theorem vecPop_last (l : List α) (x : α) : vecPop (l ++ [x]) = some (x, l) := by
  simp [vecPop]

theorem kids_last {h n : Nat} {ts : List T} (hk : Kids h ts (n + 1)) :
    ∃ ts0 oy, ts = ts0 ++ Option.toList oy ∧ (oy = none → ts0 = []) ∧ Kids h ts0 n ∧
      ∀ rts m, Kids h rts m → Kids h (oy.toList ++ rts) (m + 1) := by
  cases h with
  | zero =>
    simp only [Kids] at hk
    subst hk
    exact ⟨[], none, by simp [Kids]⟩
  | succ h =>
    simp only [Kids] at hk
    have hne : ts ≠ [] := by rintro rfl; simp at hk
    refine ⟨ts.dropLast, some (ts.getLast hne), ?_, by simp, ?_, ?_⟩
    · simp [List.dropLast_append_getLast]
    · simp only [Kids]
      exact ⟨by simp; omega, fun t ht => hk.2 t ((List.dropLast_subset _ ht))⟩
    · intro rts m hr
      simp only [Kids] at *
      refine ⟨by simp; omega, fun t ht => ?_⟩
      simp only [Option.toList_some, List.singleton_append, List.mem_cons] at ht
      rcases ht with e | ht
      · subst e; exact hk.2 _ (List.getLast_mem hne)
      · exact hr.2 t ht

theorem kids_first {h n : Nat} {ts : List T} (hk : Kids h ts (n + 1)) :
    ∃ ts0 oy, ts = Option.toList oy ++ ts0 ∧ (oy = none → ts0 = []) ∧ Kids h ts0 n ∧
      ∀ lts m, Kids h lts m → Kids h (lts ++ oy.toList) (m + 1) := by
  cases h with
  | zero =>
    simp only [Kids] at hk
    subst hk
    exact ⟨[], none, by simp [Kids]⟩
  | succ h =>
    simp only [Kids] at hk
    cases ts with
    | nil => simp at hk
    | cons t ts =>
      refine ⟨ts, some t, by simp, by simp, ?_, ?_⟩
      · simp only [Kids]
        refine ⟨?_, fun t ht => hk.2 t (by simp [ht])⟩
        have := hk.1; simp at this; omega
      · intro lts m hr
        simp only [Kids] at *
        refine ⟨by simp; omega, fun t' ht => ?_⟩
        simp only [Option.toList_some, List.mem_append, List.mem_cons, List.not_mem_nil, or_false] at ht
        rcases ht with ht | e
        · exact hr.2 t' ht
        · subst e; exact hk.2 _ (by simp)

theorem donorKey_left {s : St} {a : Nat} {ks : List Nat} {x : Nat} {cs : List Child}
    (h : s.heap[a]? = some ⟨ks ++ [x], cs⟩) :
    Side.left.getDonorKey a s = (.ok x, s.wr a ⟨ks, cs⟩) := by
  unfold Side.getDonorKey
  rw [bind_ok (readNode_some h)]
  simp only [vecPop_last, orPanic_some, pure_bind_run]
  rw [bind_ok (writeNode_wr _ _ _)]
  rfl

theorem donorKey_right {s : St} {a : Nat} {ks : List Nat} {x : Nat} {cs : List Child}
    (h : s.heap[a]? = some ⟨x :: ks, cs⟩) :
    Side.right.getDonorKey a s = (.ok x, s.wr a ⟨ks, cs⟩) := by
  unfold Side.getDonorKey
  rw [bind_ok (readNode_some h)]
  have : vecRemove (x :: ks) 0 = some (x, ks) := by simp [vecRemove]
  simp only [this, orPanic_some, pure_bind_run]
  rw [bind_ok (writeNode_wr _ _ _)]
  rfl

theorem donorChild_left {s : St} {a : Nat} {ks : List Nat} {cs : List Child} {oc : Option Child}
    (h : s.heap[a]? = some ⟨ks, cs ++ oc.toList⟩) (hn : oc = none → cs = []) :
    Side.left.getDonorChild a s = (.ok oc, s.wr a ⟨ks, cs⟩) := by
  unfold Side.getDonorChild
  rw [bind_ok (isLeaf_run h)]
  cases oc with
  | none =>
    obtain rfl := hn rfl
    rw [if_pos (by simp)]
    have hlt := (List.getElem?_eq_some_iff.mp h)
    obtain ⟨hlt, he⟩ := hlt
    have : s.wr a ⟨ks, []⟩ = s := by
      unfold St.wr
      simp only [Option.toList_none, List.append_nil] at he
      rw [← he, List.set_getElem_self]
    rw [this]; rfl
  | some c =>
    rw [if_neg (by simp), bind_ok (readNode_some h)]
    simp only [Option.toList_some, vecPop_last, orPanic_some, pure_bind_run]
    rw [bind_ok (writeNode_wr _ _ _)]
    rfl

theorem donorChild_right {s : St} {a : Nat} {ks : List Nat} {cs : List Child} {oc : Option Child}
    (h : s.heap[a]? = some ⟨ks, oc.toList ++ cs⟩) (hn : oc = none → cs = []) :
    Side.right.getDonorChild a s = (.ok oc, s.wr a ⟨ks, cs⟩) := by
  unfold Side.getDonorChild
  rw [bind_ok (isLeaf_run h)]
  cases oc with
  | none =>
    obtain rfl := hn rfl
    rw [if_pos (by simp)]
    obtain ⟨hlt, he⟩ := (List.getElem?_eq_some_iff.mp h)
    have : s.wr a ⟨ks, []⟩ = s := by
      unfold St.wr
      simp only [Option.toList_none, List.append_nil] at he
      rw [← he, List.set_getElem_self]
    rw [this]; rfl
  | some c =>
    rw [if_neg (by simp), bind_ok (readNode_some h)]
    have : vecRemove (c :: cs) 0 = some (c, cs) := by simp [vecRemove]
    simp only [Option.toList_some, List.singleton_append, this, orPanic_some, pure_bind_run]
    rw [bind_ok (writeNode_wr _ _ _)]
    rfl

theorem swapKey_run {s : St} {side : Side} {fa di : Nat} {ka kb : List Nat} {k : Nat} {cs : List Child}
    (h : s.heap[fa]? = some ⟨ka ++ k :: kb, cs⟩) (hi : side.getKeyIndex di = ka.length) (x : Nat) :
    side.swapDonorKeyInFather fa di x s = (.ok k, s.wr fa ⟨ka ++ x :: kb, cs⟩) := by
  unfold Side.swapDonorKeyInFather
  rw [hi]
  rw [bind_ok (readNode_some h)]
  have h1 : (ka ++ k :: kb)[ka.length]? = some k := by simp
  simp only [h1, vecSplice_rep, orPanic_some, pure_bind_run]
  rw [bind_ok (writeNode_wr _ _ _)]
  simp

theorem rotate_left_run {s : St} {fa la ra : Nat} {ka kb : List Nat} {k x : Nat} {A B : List Child}
    {u v : Child} {lks rks : List Nat} {lcs rcs : List Child} {oc : Option Child}
    (h1 : s.heap[fa]? = some ⟨ka ++ k :: kb, A ++ u :: v :: B⟩) (hA : A.length = ka.length)
    (h2 : s.heap[la]? = some ⟨lks ++ [x], lcs ++ oc.toList⟩) (hoc : oc = none → lcs = [])
    (h3 : s.heap[ra]? = some ⟨rks, rcs⟩)
    (n1 : la ≠ fa) (n2 : ra ≠ fa) (n3 : la ≠ ra) (ch : Changes) :
    ∃ s', Side.left.rotate fa (ka.length + 1) ra ka.length la ch s
        = (.ok ((ch.addNode la).1.addNode ra).1, s') ∧
      s'.heap[fa]? = some ⟨ka ++ x :: kb, A ++ (ch.addNode la).2 :: ((ch.addNode la).1.addNode ra).2 :: B⟩ ∧
      s'.heap[la]? = some ⟨lks, lcs⟩ ∧ s'.heap[ra]? = some ⟨k :: rks, oc.toList ++ rcs⟩ ∧
      (∀ b, b ≠ fa → b ≠ la → b ≠ ra → s'.heap[b]? = s.heap[b]?) ∧
      (∀ c io R as, Op c io s R as → fa ∈ as → la ∈ as → ra ∈ as → Op c io s' R as) := by
  have l1 := (List.getElem?_eq_some_iff.mp h1).1
  have l2 := (List.getElem?_eq_some_iff.mp h2).1
  have l3 := (List.getElem?_eq_some_iff.mp h3).1
  unfold Side.rotate
  rw [bind_ok (donorKey_left h2)]
  have h2' := St.wr_self l2 (s := s) ⟨lks, lcs ++ oc.toList⟩
  rw [bind_ok (donorChild_left h2' hoc), wr_wr]
  generalize hs1 : s.wr la ⟨lks, lcs⟩ = s1
  have g1 : ∀ b, s1.heap[b]? = if b = la then some ⟨lks, lcs⟩ else s.heap[b]? := by
    intro b; rw [← hs1, St.wr_get l2]
  have len1 : s1.heap.length = s.heap.length := by rw [← hs1, St.wr_len]
  rw [bind_ok (swapKey_run (s := s1) (k := k) (ka := ka) (kb := kb) (cs := A ++ u :: v :: B)
    (by rw [g1, if_neg (Ne.symm n1)]; exact h1) (by simp [Side.getKeyIndex]) x)]
  generalize hs2 : s1.wr fa ⟨ka ++ x :: kb, A ++ u :: v :: B⟩ = s2
  have g2 : ∀ b, s2.heap[b]? = if b = fa then some ⟨ka ++ x :: kb, A ++ u :: v :: B⟩ else s1.heap[b]? := by
    intro b; rw [← hs2, St.wr_get (by omega)]
  have len2 : s2.heap.length = s.heap.length := by rw [← hs2, St.wr_len, len1]
  have hins : Side.left.insertDonations ra k oc s2
      = (.ok (), s2.wr ra ⟨k :: rks, oc.toList ++ rcs⟩) := by
    unfold Side.insertDonations
    rw [bind_ok (readNode_some (show s2.heap[ra]? = some ⟨rks, rcs⟩ by
      rw [g2, if_neg n2, g1, if_neg (Ne.symm n3)]; exact h3))]
    rfl
  rw [bind_ok hins]
  generalize hs3 : s2.wr ra ⟨k :: rks, oc.toList ++ rcs⟩ = s3
  have g3 : ∀ b, s3.heap[b]? = if b = ra then some ⟨k :: rks, oc.toList ++ rcs⟩ else s2.heap[b]? := by
    intro b; rw [← hs3, St.wr_get (by omega)]
  have len3 : s3.heap.length = s.heap.length := by rw [← hs3, St.wr_len, len2]
  simp only []
  rw [bind_ok (setChild_run (s := s3) (ks := ka ++ x :: kb) (A := A) (B := v :: B) (x := u)
    (by rw [g3, if_neg (Ne.symm n2), g2, if_pos rfl]) hA.symm _)]
  rw [bind_ok (setChild_run (s := s3.wr fa _) (ks := ka ++ x :: kb) (A := A ++ [(ch.addNode la).2])
    (B := B) (x := v) (by rw [St.wr_self (by omega)]; simp) (by simp [hA]) _), wr_wr]
  refine ⟨_, rfl, ?_, ?_, ?_, ?_, ?_⟩
  · rw [St.wr_self (by omega)]; simp
  · rw [St.wr_other (Ne.symm n1), g3, if_neg n3, g2, if_neg n1, g1, if_pos rfl]
  · rw [St.wr_other (Ne.symm n2), g3, if_pos rfl]
  · intro b b1 b2 b3
    rw [St.wr_other (Ne.symm b1), g3, if_neg b3, g2, if_neg b1, g1, if_neg b2]
  · intro c io R as hop m1 m2 m3
    refine Op.write ?_ m1 _
    rw [← hs3]; refine Op.write ?_ m3 _
    rw [← hs2]; refine Op.write ?_ m1 _
    rw [← hs1]; exact Op.write hop m2 _

theorem rotate_right_run {s : St} {fa la ra : Nat} {ka kb : List Nat} {k x : Nat} {A B : List Child}
    {u v : Child} {lks rks : List Nat} {lcs rcs : List Child} {oc : Option Child}
    (h1 : s.heap[fa]? = some ⟨ka ++ k :: kb, A ++ u :: v :: B⟩) (hA : A.length = ka.length)
    (h2 : s.heap[la]? = some ⟨lks, lcs⟩)
    (h3 : s.heap[ra]? = some ⟨x :: rks, oc.toList ++ rcs⟩) (hoc : oc = none → rcs = [])
    (n1 : la ≠ fa) (n2 : ra ≠ fa) (n3 : la ≠ ra) (ch : Changes) :
    ∃ s', Side.right.rotate fa ka.length la (ka.length + 1) ra ch s
        = (.ok ((ch.addNode ra).1.addNode la).1, s') ∧
      s'.heap[fa]? = some ⟨ka ++ x :: kb, A ++ ((ch.addNode ra).1.addNode la).2 :: (ch.addNode ra).2 :: B⟩ ∧
      s'.heap[ra]? = some ⟨rks, rcs⟩ ∧ s'.heap[la]? = some ⟨lks ++ [k], lcs ++ oc.toList⟩ ∧
      (∀ b, b ≠ fa → b ≠ la → b ≠ ra → s'.heap[b]? = s.heap[b]?) ∧
      (∀ c io R as, Op c io s R as → fa ∈ as → la ∈ as → ra ∈ as → Op c io s' R as) := by
  have l1 := (List.getElem?_eq_some_iff.mp h1).1
  have l2 := (List.getElem?_eq_some_iff.mp h2).1
  have l3 := (List.getElem?_eq_some_iff.mp h3).1
  unfold Side.rotate
  rw [bind_ok (donorKey_right h3)]
  have h3' := St.wr_self l3 (s := s) ⟨rks, oc.toList ++ rcs⟩
  rw [bind_ok (donorChild_right h3' hoc), wr_wr]
  generalize hs1 : s.wr ra ⟨rks, rcs⟩ = s1
  have g1 : ∀ b, s1.heap[b]? = if b = ra then some ⟨rks, rcs⟩ else s.heap[b]? := by
    intro b; rw [← hs1, St.wr_get l3]
  have len1 : s1.heap.length = s.heap.length := by rw [← hs1, St.wr_len]
  rw [bind_ok (swapKey_run (s := s1) (k := k) (ka := ka) (kb := kb) (cs := A ++ u :: v :: B)
    (by rw [g1, if_neg (Ne.symm n2)]; exact h1) (by simp [Side.getKeyIndex]) x)]
  generalize hs2 : s1.wr fa ⟨ka ++ x :: kb, A ++ u :: v :: B⟩ = s2
  have g2 : ∀ b, s2.heap[b]? = if b = fa then some ⟨ka ++ x :: kb, A ++ u :: v :: B⟩ else s1.heap[b]? := by
    intro b; rw [← hs2, St.wr_get (by omega)]
  have len2 : s2.heap.length = s.heap.length := by rw [← hs2, St.wr_len, len1]
  have hins : Side.right.insertDonations la k oc s2
      = (.ok (), s2.wr la ⟨lks ++ [k], lcs ++ oc.toList⟩) := by
    unfold Side.insertDonations
    rw [bind_ok (readNode_some (show s2.heap[la]? = some ⟨lks, lcs⟩ by
      rw [g2, if_neg n1, g1, if_neg n3]; exact h2))]
    rfl
  rw [bind_ok hins]
  generalize hs3 : s2.wr la ⟨lks ++ [k], lcs ++ oc.toList⟩ = s3
  have g3 : ∀ b, s3.heap[b]? = if b = la then some ⟨lks ++ [k], lcs ++ oc.toList⟩ else s2.heap[b]? := by
    intro b; rw [← hs3, St.wr_get (by omega)]
  have len3 : s3.heap.length = s.heap.length := by rw [← hs3, St.wr_len, len2]
  simp only []
  rw [bind_ok (setChild_run (s := s3) (ks := ka ++ x :: kb) (A := A ++ [u]) (B := B) (x := v)
    (by rw [g3, if_neg (Ne.symm n1), g2, if_pos rfl]; simp) (by simp [hA]) _)]
  rw [bind_ok (setChild_run (s := s3.wr fa _) (ks := ka ++ x :: kb) (A := A)
    (B := (ch.addNode ra).2 :: B) (x := u) (by rw [St.wr_self (by omega)]; simp) hA.symm _), wr_wr]
  refine ⟨_, rfl, ?_, ?_, ?_, ?_, ?_⟩
  · rw [St.wr_self (by omega)]
  · rw [St.wr_other (Ne.symm n2), g3, if_neg (Ne.symm n3), g2, if_neg n2, g1, if_pos rfl]
  · rw [St.wr_other (Ne.symm n1), g3, if_pos rfl]
  · intro b b1 b2 b3
    rw [St.wr_other (Ne.symm b1), g3, if_neg b2, g2, if_neg b1, g1, if_neg b3]
  · intro c io R as hop m1 m2 m3
    refine Op.write ?_ m1 _
    rw [← hs3]; refine Op.write ?_ m2 _
    rw [← hs2]; refine Op.write ?_ m1 _
    rw [← hs1]; exact Op.write hop m3 _

theorem list_snoc {l : List α} (h : 0 < l.length) : ∃ l0 x, l = l0 ++ [x] := by
  have hne : l ≠ [] := by rintro rfl; simp at h
  exact ⟨l.dropLast, l.getLast hne, (List.dropLast_append_getLast hne).symm⟩

theorem Pair.rotL {c : List Bytes} {io : Io} {s : St} {R : Child → Prop} {ch : Changes}
    {Pv : List Node} {fs : List Fr} {h fa : Nat} {ka kb : List Nat} {A B : List T} {k la : Nat}
    {lks : List Nat} {lts : List T} {ra : Nat} {rks : List Nat} {rts : List T}
    (p : Pair c io s R ch Pv fs h fa ka kb A B k la lks lts ra rks rts)
    (hl : 5 ≤ lks.length ∧ lks.length ≤ 8) (hr : rks.length = 3) :
    ∃ s' ch' k' fts Pn, Side.left.rotate fa (ka.length + 1) ra ka.length la ch s = (.ok ch', s') ∧
      Mended c io s' R ch' (Pv ++ Pn) fs h fa (ka ++ k' :: kb) fts ∧ ch'.key = ch.key ∧
      ch'.value = ch.value ∧ Pn.length = 2 ∧
      flatL (ka ++ k' :: kb) fts
        = preF ka A ++ (flatL lks lts ++ k :: flatL rks rts) ++ postF kb B := by
  obtain ⟨x, y, hf⟩ := p.father
  have hnod := p.op.nodup
  simp only [List.nodup_cons, List.mem_cons, List.mem_append, List.mem_map, not_or, not_exists,
    not_and] at hnod
  obtain ⟨⟨n1, n2, n3, n4⟩, ⟨n5, n6, n7⟩, ⟨n8, n9⟩, _⟩ := hnod
  obtain ⟨lks0, k', rfl⟩ := list_snoc (l := lks) (by omega)
  have hlk := p.lkids
  rw [List.length_append, List.length_singleton] at hlk
  obtain ⟨lts0, oy, rfl, hoy, hk0, hk1⟩ := kids_last hlk
  obtain ⟨s', h1, h2, h3, h3', h4, h5⟩ := rotate_left_run (x := k') (lks := lks0) (lcs := lts0.map T.ref)
    (oc := oy.map T.ref) hf (by simp [p.okA]) (by rw [p.lheap]; cases oy <;> simp)
    (by intro e; rw [hoy (by simpa using e)]; rfl) p.rheap n2 n5 n1 ch
  have hadd : ch.addNode la = ({ ch with nodes := ch.nodes ++ [la] }, ⟨c.length, Pv.length⟩) := by
    simp [Changes.addNode, p.seq, p.pend.len]
  have hadd2 : (ch.addNode la).1.addNode ra
      = ({ ch with nodes := ch.nodes ++ [la, ra] }, ⟨c.length, Pv.length + 1⟩) := by
    simp [Changes.addNode, p.seq, p.pend.len]
  rw [hadd2] at h1
  rw [hadd2, hadd] at h2
  obtain ⟨fts, hm, hfl⟩ := p.mend2 (s' := s') (as2 := [la, ra])
    (Pn := [⟨lks0, lts0.map T.ref⟩, ⟨k :: rks, (oy.toList ++ rts).map T.ref⟩])
    (oL := Pv.length) (oR := Pv.length + 1) (k' := k') (lks' := lks0) (rks' := k :: rks)
    (lts' := lts0) (rts' := oy.toList ++ rts)
    ((h5 _ _ _ _ p.op (by simp) (by simp) (by simp)).sub (by count_tac))
    (by
      have := ((p.pend.same (s' := s') fun a ha => h4 a (fun e => n9 (e ▸ ha)) (fun e => n4 (e ▸ ha))
        (fun e => n7 (e ▸ ha))).append h3).append
        (n := ⟨k :: rks, (oy.toList ++ rts).map T.ref⟩) (by rw [h3']; cases oy <;> simp)
      simpa using this)
    (by simp) (by simp) (by omega) (by omega) (by omega) h2 (by simp) (by simp) hk0
    (hk1 _ _ p.rkids) (by simp at hl; omega) (by simp; omega)
    (fun f hf => (p.frs f hf).same (h4 f.a (fun e => n8 f hf e) (fun e => n3 f hf e) (fun e => n6 f hf e)))
  exact ⟨s', _, k', fts, _, h1, hm, rfl, rfl, rfl, hfl⟩

theorem Pair.rotR {c : List Bytes} {io : Io} {s : St} {R : Child → Prop} {ch : Changes}
    {Pv : List Node} {fs : List Fr} {h fa : Nat} {ka kb : List Nat} {A B : List T} {k la : Nat}
    {lks : List Nat} {lts : List T} {ra : Nat} {rks : List Nat} {rts : List T}
    (p : Pair c io s R ch Pv fs h fa ka kb A B k la lks lts ra rks rts)
    (hr : 5 ≤ rks.length ∧ rks.length ≤ 8) (hl : lks.length = 3) :
    ∃ s' ch' k' fts Pn, Side.right.rotate fa ka.length la (ka.length + 1) ra ch s = (.ok ch', s') ∧
      Mended c io s' R ch' (Pv ++ Pn) fs h fa (ka ++ k' :: kb) fts ∧ ch'.key = ch.key ∧
      ch'.value = ch.value ∧ Pn.length = 2 ∧
      flatL (ka ++ k' :: kb) fts
        = preF ka A ++ (flatL lks lts ++ k :: flatL rks rts) ++ postF kb B := by
  obtain ⟨x, y, hf⟩ := p.father
  have hnod := p.op.nodup
  simp only [List.nodup_cons, List.mem_cons, List.mem_append, List.mem_map, not_or, not_exists,
    not_and] at hnod
  obtain ⟨⟨n1, n2, n3, n4⟩, ⟨n5, n6, n7⟩, ⟨n8, n9⟩, _⟩ := hnod
  cases rks with
  | nil => simp at hr
  | cons k' rks0 =>
  obtain ⟨rts0, oy, rfl, hoy, hk0, hk1⟩ := kids_first (n := rks0.length) (by simpa using p.rkids)
  obtain ⟨s', h1, h2, h3, h3', h4, h5⟩ := rotate_right_run (x := k') (rks := rks0) (rcs := rts0.map T.ref)
    (oc := oy.map T.ref) hf (by simp [p.okA]) p.lheap (by rw [p.rheap]; cases oy <;> simp)
    (by intro e; rw [hoy (by simpa using e)]; rfl) n2 n5 n1 ch
  have hadd : ch.addNode ra = ({ ch with nodes := ch.nodes ++ [ra] }, ⟨c.length, Pv.length⟩) := by
    simp [Changes.addNode, p.seq, p.pend.len]
  have hadd2 : (ch.addNode ra).1.addNode la
      = ({ ch with nodes := ch.nodes ++ [ra, la] }, ⟨c.length, Pv.length + 1⟩) := by
    simp [Changes.addNode, p.seq, p.pend.len]
  rw [hadd2] at h1
  rw [hadd2, hadd] at h2
  obtain ⟨fts, hm, hfl⟩ := p.mend2 (s' := s') (as2 := [ra, la])
    (Pn := [⟨rks0, rts0.map T.ref⟩, ⟨lks ++ [k], (lts ++ oy.toList).map T.ref⟩])
    (oL := Pv.length + 1) (oR := Pv.length) (k' := k') (lks' := lks ++ [k]) (rks' := rks0)
    (lts' := lts ++ oy.toList) (rts' := rts0)
    ((h5 _ _ _ _ p.op (by simp) (by simp) (by simp)).sub (by count_tac))
    (by
      have := ((p.pend.same (s' := s') fun a ha => h4 a (fun e => n9 (e ▸ ha)) (fun e => n4 (e ▸ ha))
        (fun e => n7 (e ▸ ha))).append h3).append
        (n := ⟨lks ++ [k], (lts ++ oy.toList).map T.ref⟩) (by rw [h3']; cases oy <;> simp)
      simpa using this)
    (by simp) (by simp) (by omega) (by omega) (by omega) h2 (by simp) (by simp)
    (by simpa using hk1 _ _ p.lkids) hk0 (by simp; omega) (by simp at hr; omega)
    (fun f hf => (p.frs f hf).same (h4 f.a (fun e => n8 f hf e) (fun e => n3 f hf e) (fun e => n6 f hf e)))
  exact ⟨s', _, k', fts, _, h1, hm, rfl, rfl, rfl, hfl⟩

/-! ## One repair step -/

/-- A node `d` with one key too few, below the path `f :: fs`. -/
structure Def (c : List Bytes) (io : Io) (s : St) (R : Child → Prop) (ch : Changes) (Pv : List Node)
    (f : Fr) (fs : List Fr) (h d : Nat) (dks : List Nat) (dts : List T) : Prop where
  op : Op c io s R (d :: f.a :: (fs.map (·.a) ++ ch.nodes))
  seq : ch.seq = c.length
  pend : PendH s ch.nodes Pv
  heap : s.heap[d]? = some ⟨dks, dts.map T.ref⟩
  kids : Kids h dts dks.length
  rep : ∀ t ∈ dts, RepN c Pv t
  live : ∀ r ∈ refsL dts, r.seq ≠ c.length → R r
  frs : ∀ g ∈ f :: fs, FrH c R s g
  ctx : CtxGood h (f :: fs)
  nodup : (refsL dts ++ ctxRefs (f :: fs)).Nodup
  three : dks.length = 3

section
variable {c : List Bytes} {io : Io} {s s' : St} {R : Child → Prop} {ch : Changes} {Pv : List Node}
  {f : Fr} {fs : List Fr} {h d : Nat} {dks : List Nat} {dts : List T}

theorem Def.ext (D : Def c io s R ch Pv f fs h d dks dts) (e : Ext s s') :
    Def c io s' R ch Pv f fs h d dks dts := by
  refine ⟨D.op.ext e, D.seq, D.pend.same fun a ha => ?_, e.get D.heap, D.kids, D.rep, D.live, ?_,
    D.ctx, D.nodup, D.three⟩
  · exact e.get_lt (D.op.lt a (by simp [ha]))
  · intro g hg
    refine (D.frs g hg).same (e.get_lt (D.op.lt _ ?_))
    rcases List.mem_cons.mp hg with rfl | hg
    · simp
    · simp only [List.mem_cons, List.mem_append, List.mem_map]
      exact .inr (.inr (.inl ⟨g, hg, rfl⟩))

theorem Def.load (D : Def c io s R ch Pv f fs h d dks dts) {t : T} (ht : t ∈ f.A ++ f.B) {i : Nat}
    (hi : ∀ hole : Child, (f.A.map T.ref ++ hole :: f.B.map T.ref)[i]? = some t.ref) :
    ∃ a s1, getChild f.a i s = (.ok a, s1) ∧ Ext s s1 ∧ addrOf s1 t.ref = some a ∧
      s1.heap[a]? = some t.node := by
  obtain ⟨⟨hole, hf⟩, hA, hB⟩ := D.frs f (by simp)
  have hr : Rep (nodeAt c) t ∧ ∀ r ∈ t.refs, R r := by
    rcases List.mem_append.mp ht with ht | ht
    · exact hA t ht
    · exact hB t ht
  have hn : nodeAt s.core t.ref = some t.node := by rw [D.op.core]; exact hr.1.node
  obtain ⟨a, s1, h1, e1, ha⟩ := getChild_run D.op.wf hf (hi hole) hn
  refine ⟨a, s1, h1, e1, ha, ?_⟩
  have := (D.op.ext e1).coh t.ref (hr.2 _ (T.ref_mem_refs t)) a ha
  rw [this, e1.core, hn]

theorem Def.pairL (D : Def c io s R ch Pv f fs h d dks dts) {A0 : List T} {lr : Child} {lks : List Nat}
    {lts : List T} {ka0 : List Nat} {k : Nat} (hA : f.A = A0 ++ [.mk lr lks lts]) (hka : f.ka = ka0 ++ [k])
    {la : Nat} (ha : addrOf s lr = some la) (hh : s.heap[la]? = some ⟨lks, lts.map T.ref⟩) :
    Pair c io s (fun r => R r ∧ r ≠ lr) ch Pv fs h f.a ka0 f.kb A0 f.B k la lks lts d dks dts := by
  obtain ⟨⟨hole, hf⟩, hfA, hfB⟩ := D.frs f (by simp)
  obtain ⟨hok, hfill, hgA, hgB, hctx⟩ := D.ctx
  have hnd := D.nodup
  rw [hA] at hfA hgA hf
  rw [hka] at hf
  have hl := hfA (.mk lr lks lts) (by simp)
  have hRl : R lr := hl.2 _ (by simp [T.refs])
  have hnd1 : (lr :: (refsL lts ++ refsL dts ++ (refsL A0 ++ refsL f.B ++ ctxRefs fs))).Nodup := by
    refine nodup_of_count_le ?_ hnd
    simp only [ctxRefs, hA]
    count_tac
  rw [List.nodup_cons] at hnd1
  obtain ⟨hnl, hnd1⟩ := hnd1
  simp only [List.mem_append, not_or] at hnl
  obtain ⟨⟨hn1, hn2⟩, ⟨hn3, hn4⟩, hn5⟩ := hnl
  have hne : ∀ {ts : List T}, lr ∉ refsL ts → ∀ t ∈ ts, ∀ r ∈ t.refs, r ≠ lr := by
    intro ts hn t ht r hr e
    subst e; exact hn (mem_refsL.mpr ⟨t, ht, hr⟩)
  have hgl := goodN_mk.mp (hgA (.mk lr lks lts) (by simp))
  have hokA := hok.1
  rw [hA, hka] at hokA
  refine ⟨D.op.take hRl ha, D.seq, D.pend, ⟨lr, hole, by simpa [T.ref] using hf⟩, hh, D.heap, hgl.2, D.kids,
    ?_, ?_, by simpa using hokA, hok.2, ?_, ?_, ?_, ?_⟩
  · intro t ht
    rcases List.mem_append.mp ht with ht | ht
    · exact (hl.1.kids t ht).old _
    · exact D.rep t ht
  · intro r hr hs
    rw [refsL_append, List.mem_append] at hr
    rcases hr with hr | hr
    · refine ⟨hl.2 r (by simp [T.refs, hr]), ?_⟩
      rintro rfl; exact hn1 hr
    · refine ⟨D.live r hr hs, ?_⟩
      rintro rfl; exact hn2 hr
  · intro t ht
    exact ⟨(hfA t (by simp [ht])).1, fun r hr => ⟨(hfA t (by simp [ht])).2 r hr, hne hn3 t ht r hr⟩,
      hgA t (by simp [ht])⟩
  · intro t ht
    exact ⟨(hfB t ht).1, fun r hr => ⟨(hfB t ht).2 r hr, hne hn4 t ht r hr⟩, hgB t ht⟩
  · intro g hg
    refine (D.frs g (by simp [hg])).mono fun r hr h => ⟨h, ?_⟩
    rintro rfl
    exact hn5 (ctxRefs_mem hg _ hr)
  · rw [refsL_append]; exact hnd1

theorem Def.pairR (D : Def c io s R ch Pv f fs h d dks dts) {B0 : List T} {lr : Child} {lks : List Nat}
    {lts : List T} {kb0 : List Nat} {k : Nat} (hB : f.B = .mk lr lks lts :: B0) (hkb : f.kb = k :: kb0)
    {la : Nat} (ha : addrOf s lr = some la) (hh : s.heap[la]? = some ⟨lks, lts.map T.ref⟩) :
    Pair c io s (fun r => R r ∧ r ≠ lr) ch Pv fs h f.a f.ka kb0 f.A B0 k d dks dts la lks lts := by
  obtain ⟨⟨hole, hf⟩, hfA, hfB⟩ := D.frs f (by simp)
  obtain ⟨hok, hfill, hgA, hgB, hctx⟩ := D.ctx
  have hnd := D.nodup
  rw [hB] at hfB hgB hf
  rw [hkb] at hf
  have hl := hfB (.mk lr lks lts) (by simp)
  have hRl : R lr := hl.2 _ (by simp [T.refs])
  have hnd1 : (lr :: (refsL dts ++ refsL lts ++ (refsL f.A ++ refsL B0 ++ ctxRefs fs))).Nodup := by
    refine nodup_of_count_le ?_ hnd
    simp only [ctxRefs, hB]
    count_tac
  rw [List.nodup_cons] at hnd1
  obtain ⟨hnl, hnd1⟩ := hnd1
  simp only [List.mem_append, not_or] at hnl
  obtain ⟨⟨hn2, hn1⟩, ⟨hn3, hn4⟩, hn5⟩ := hnl
  have hne : ∀ {ts : List T}, lr ∉ refsL ts → ∀ t ∈ ts, ∀ r ∈ t.refs, r ≠ lr := by
    intro ts hn t ht r hr e
    subst e; exact hn (mem_refsL.mpr ⟨t, ht, hr⟩)
  have hgl := goodN_mk.mp (hgB (.mk lr lks lts) (by simp))
  have hokB := hok.2
  rw [hB, hkb] at hokB
  refine ⟨(D.op.take hRl ha).sub (by count_tac), D.seq, D.pend, ⟨hole, lr, by simpa [T.ref] using hf⟩, D.heap, hh,
    D.kids, hgl.2, ?_, ?_, hok.1, by simpa using hokB, ?_, ?_, ?_, ?_⟩
  · intro t ht
    rcases List.mem_append.mp ht with ht | ht
    · exact D.rep t ht
    · exact (hl.1.kids t ht).old _
  · intro r hr hs
    rw [refsL_append, List.mem_append] at hr
    rcases hr with hr | hr
    · refine ⟨D.live r hr hs, ?_⟩
      rintro rfl; exact hn2 hr
    · refine ⟨hl.2 r (by simp [T.refs, hr]), ?_⟩
      rintro rfl; exact hn1 hr
  · intro t ht
    exact ⟨(hfA t ht).1, fun r hr => ⟨(hfA t ht).2 r hr, hne hn3 t ht r hr⟩, hgA t ht⟩
  · intro t ht
    exact ⟨(hfB t (by simp [ht])).1, fun r hr => ⟨(hfB t (by simp [ht])).2 r hr, hne hn4 t ht r hr⟩,
      hgB t (by simp [ht])⟩
  · intro g hg
    refine (D.frs g (by simp [hg])).mono fun r hr h => ⟨h, ?_⟩
    rintro rfl
    exact hn5 (ctxRefs_mem hg _ hr)
  · rw [refsL_append]; exact hnd1

/-- The result of one repair step. -/
structure Fixed (c : List Bytes) (io : Io) (s' : St) (R : Child → Prop) (ch ch' : Changes)
    (Pv : List Node) (f : Fr) (fs : List Fr) (h : Nat) (dks : List Nat) (dts : List T) : Prop where
  ex : ∃ R' Pn fks fts, Mended c io s' R' ch' (Pv ++ Pn) fs h f.a fks fts ∧ (∀ r, R' r → R r) ∧
    flatL fks fts = preF f.ka f.A ++ flatL dks dts ++ postF f.kb f.B ∧
    ((fks.length = f.ka.length + f.kb.length ∧ Pn.length = 2) ∨
      (fks.length + 1 = f.ka.length + f.kb.length ∧ Pn.length = 1))
  key : ch'.key = ch.key
  value : ch'.value = ch.value

theorem flat_snoc {ka0 : List Nat} {A0 : List T} (h : A0.length = ka0.length) (k : Nat) (l : T) :
    preF (ka0 ++ [k]) (A0 ++ [l]) = preF ka0 A0 ++ (l.flat ++ [k]) := by
  rw [preF_append h]; simp [preF]

/-- The left neighbour: absent, or loaded with its number of keys. -/
theorem Def.left (D : Def c io s R ch Pv f fs h d dks dts) :
    (f.ka = [] ∧ f.A = []) ∨
    ∃ ka0 k A0 lr lks lts la s1, f.ka = ka0 ++ [k] ∧ f.A = A0 ++ [.mk lr lks lts] ∧
      A0.length = ka0.length ∧ 4 ≤ lks.length ∧ lks.length ≤ 8 ∧
      getChild f.a ka0.length s = (.ok la, s1) ∧ Ext s s1 ∧ addrOf s1 lr = some la ∧
      s1.heap[la]? = some ⟨lks, lts.map T.ref⟩ := by
  obtain ⟨hok, hfill, hgA, hgB, hctx⟩ := D.ctx
  by_cases h0 : f.ka.length = 0
  · left
    exact ⟨List.eq_nil_of_length_eq_zero h0, List.eq_nil_of_length_eq_zero (by rw [hok.1, h0])⟩
  · right
    obtain ⟨ka0, k, hka⟩ := list_snoc (l := f.ka) (by omega)
    obtain ⟨A0, l, hA⟩ := list_snoc (l := f.A) (by rw [hok.1]; omega)
    have hlen : A0.length = ka0.length := by
      have := hok.1; rw [hA, hka] at this; simpa using this
    obtain ⟨lr, lks, lts⟩ := l
    obtain ⟨la, s1, h1, e1, h2, h3⟩ := D.load (t := .mk lr lks lts) (i := ka0.length) (by rw [hA]; simp)
      (by intro hole; rw [hA, ← hlen]; simp [T.ref])
    have hg := (goodN_mk.mp (hgA (.mk lr lks lts) (by rw [hA]; simp))).1
    exact ⟨ka0, k, A0, lr, lks, lts, la, s1, hka, hA, hlen, hg.2.1 rfl, hg.1, h1, e1, h2, h3⟩

theorem Def.right (D : Def c io s R ch Pv f fs h d dks dts) :
    (f.kb = [] ∧ f.B = []) ∨
    ∃ kb0 k B0 lr lks lts la s1, f.kb = k :: kb0 ∧ f.B = .mk lr lks lts :: B0 ∧
      B0.length = kb0.length ∧ 4 ≤ lks.length ∧ lks.length ≤ 8 ∧
      getChild f.a (f.ka.length + 1) s = (.ok la, s1) ∧ Ext s s1 ∧ addrOf s1 lr = some la ∧
      s1.heap[la]? = some ⟨lks, lts.map T.ref⟩ := by
  obtain ⟨hok, hfill, hgA, hgB, hctx⟩ := D.ctx
  cases hkb : f.kb with
  | nil =>
    left
    exact ⟨rfl, List.eq_nil_of_length_eq_zero (by rw [hok.2, hkb]; rfl)⟩
  | cons k kb0 =>
    right
    cases hB : f.B with
    | nil => have := hok.2; rw [hB, hkb] at this; simp at this
    | cons l B0 =>
      have hlen : B0.length = kb0.length := by
        have := hok.2; rw [hB, hkb] at this; simpa using this
      obtain ⟨lr, lks, lts⟩ := l
      obtain ⟨la, s1, h1, e1, h2, h3⟩ := D.load (t := .mk lr lks lts) (i := f.ka.length + 1)
        (by rw [hB]; simp)
        (by
          intro hole
          rw [hB, ← hok.1, List.getElem?_append_right (by simp)]
          simp [T.ref])
      have hg := (goodN_mk.mp (hgB (.mk lr lks lts) (by rw [hB]; simp))).1
      exact ⟨kb0, k, B0, lr, lks, lts, la, s1, rfl, rfl, hlen, hg.2.1 rfl, hg.1, h1, e1, h2, h3⟩

theorem Def.tryRotL (D : Def c io s R ch Pv f fs h d dks dts) :
    ∃ s1, (∃ ch', Side.left.maybeRotate f.a f.ka.length d 8 ch s = (.ok (some ch'), s1) ∧
        Fixed c io s1 R ch ch' Pv f fs h dks dts) ∨
      (Side.left.maybeRotate f.a f.ka.length d 8 ch s = (.ok none, s1) ∧ Ext s s1 ∧
        ∀ l ∈ f.A.getLast?, l.keys.length = 4) := by
  rcases D.left with ⟨h1, h2⟩ | ⟨ka0, k, A0, lr, lks, lts, la, s1, hka, hA, hlen, h4, h8, hg, e1, haddr, hh⟩
  · refine ⟨s, .inr ⟨?_, Ext.refl D.op.wf, by simp [h2]⟩⟩
    rw [h1]; rfl
  · have hlen1 : f.ka.length = ka0.length + 1 := by rw [hka]; simp
    have hcan : Side.left.canRotate f.a f.ka.length 8 s
        = (if 4 < lks.length then (.ok (some (ka0.length, la)), s1) else (.ok none, s1)) := by
      unfold Side.canRotate
      rw [hlen1]
      have : Side.left.getDonorIndex f.a (ka0.length + 1) s = (.ok (some ka0.length), s) := rfl
      rw [bind_ok this]
      simp only []
      rw [bind_ok hg, bind_ok (readNode_some hh)]
      have hm : minKeys 8 = 4 := rfl
      rw [hm]
      split <;> rfl
    by_cases hc : 4 < lks.length
    · rw [if_pos hc] at hcan
      obtain ⟨s2, ch', k', fts, Pn, p1, p2, p3, p4, p5, p6⟩ := ((D.ext e1).pairL hA hka haddr hh).rotL
        ⟨hc, h8⟩ D.three
      refine ⟨s2, .inl ⟨ch', ?_, ⟨_, Pn, _, fts, p2, fun r hr => hr.1, ?_, .inl ⟨?_, p5⟩⟩, p3, p4⟩⟩
      · unfold Side.maybeRotate
        rw [bind_ok hcan]
        simp only []
        rw [hlen1, bind_ok p1]
        rfl
      · rw [p6, hka, hA, flat_snoc hlen]; simp [T.flat]
      · rw [hka]; simp; omega
    · rw [if_neg hc] at hcan
      refine ⟨s1, .inr ⟨?_, e1, ?_⟩⟩
      · unfold Side.maybeRotate
        rw [bind_ok hcan]
        rfl
      · intro l hl
        rw [hA] at hl
        simp at hl
        subst hl
        simp only [T.keys]; omega

theorem Def.donorR (D : Def c io s R ch Pv f fs h d dks dts) :
    Side.right.getDonorIndex f.a f.ka.length s
      = (.ok (if f.kb = [] then none else some (f.ka.length + 1)), s) := by
  obtain ⟨⟨hole, hf⟩, _, _⟩ := D.frs f (by simp)
  have hok := D.ctx.1
  unfold Side.getDonorIndex
  simp only []
  rw [bind_ok (readNode_some hf)]
  simp only [List.length_append, List.length_map, List.length_cons, hok.1, hok.2]
  cases f.kb with
  | nil => simp
  | cons k kb =>
    rw [if_neg (by simp), if_neg (by simp)]; rfl

theorem Def.tryRotR (D : Def c io s R ch Pv f fs h d dks dts) :
    ∃ s1, (∃ ch', Side.right.maybeRotate f.a f.ka.length d 8 ch s = (.ok (some ch'), s1) ∧
        Fixed c io s1 R ch ch' Pv f fs h dks dts) ∨
      (Side.right.maybeRotate f.a f.ka.length d 8 ch s = (.ok none, s1) ∧ Ext s s1 ∧
        ∀ l ∈ f.B.head?, l.keys.length = 4) := by
  have hdr := D.donorR
  rcases D.right with ⟨h1, h2⟩ | ⟨kb0, k, B0, lr, lks, lts, la, s1, hkb, hB, hlen, h4, h8, hg, e1, haddr, hh⟩
  · refine ⟨s, .inr ⟨?_, Ext.refl D.op.wf, by simp [h2]⟩⟩
    rw [if_pos h1] at hdr
    unfold Side.maybeRotate
    have : Side.right.canRotate f.a f.ka.length 8 s = (.ok none, s) := by
      unfold Side.canRotate
      rw [bind_ok hdr]; rfl
    rw [bind_ok this]; rfl
  · rw [if_neg (by simp [hkb])] at hdr
    have hcan : Side.right.canRotate f.a f.ka.length 8 s
        = (if 4 < lks.length then (.ok (some (f.ka.length + 1, la)), s1) else (.ok none, s1)) := by
      unfold Side.canRotate
      rw [bind_ok hdr]
      simp only []
      rw [bind_ok hg, bind_ok (readNode_some hh)]
      have hm : minKeys 8 = 4 := rfl
      rw [hm]
      split <;> rfl
    by_cases hc : 4 < lks.length
    · rw [if_pos hc] at hcan
      obtain ⟨s2, ch', k', fts, Pn, p1, p2, p3, p4, p5, p6⟩ := ((D.ext e1).pairR hB hkb haddr hh).rotR
        ⟨hc, h8⟩ D.three
      refine ⟨s2, .inl ⟨ch', ?_, ⟨_, Pn, _, fts, p2, fun r hr => hr.1, ?_, .inl ⟨?_, p5⟩⟩, p3, p4⟩⟩
      · unfold Side.maybeRotate
        rw [bind_ok hcan]
        simp only []
        rw [bind_ok p1]
        rfl
      · rw [p6, hkb, hB]; simp [T.flat, postF]
      · rw [hkb]; simp
    · rw [if_neg hc] at hcan
      refine ⟨s1, .inr ⟨?_, e1, ?_⟩⟩
      · unfold Side.maybeRotate
        rw [bind_ok hcan]
        rfl
      · intro l hl
        rw [hB] at hl
        simp at hl
        subst hl
        simp only [T.keys]; omega

theorem Def.tryMergeL (D : Def c io s R ch Pv f fs h d dks dts)
    (h4 : ∀ l ∈ f.A.getLast?, l.keys.length = 4) :
    ∃ s1, (∃ ch', Side.left.maybeMerge f.a f.ka.length d ch s = (.ok (some ch'), s1) ∧
        Fixed c io s1 R ch ch' Pv f fs h dks dts) ∨
      (Side.left.maybeMerge f.a f.ka.length d ch s = (.ok none, s1) ∧ Ext s s1 ∧ f.ka = []) := by
  rcases D.left with ⟨h1, h2⟩ | ⟨ka0, k, A0, lr, lks, lts, la, s1, hka, hA, hlen, _, _, hg, e1, haddr, hh⟩
  · refine ⟨s, .inr ⟨?_, Ext.refl D.op.wf, h1⟩⟩
    rw [h1]; rfl
  · have hlen1 : f.ka.length = ka0.length + 1 := by rw [hka]; simp
    have hl4 : lks.length = 4 := h4 (.mk lr lks lts) (by rw [hA]; simp)
    obtain ⟨s2, ch', fts, Pn, p1, p2, p3, p4, p5⟩ := ((D.ext e1).pairL hA hka haddr hh).merge
      (by have := D.three; omega)
    refine ⟨s2, .inl ⟨ch', ?_, ⟨_, [Pn], _, fts, p2, fun r hr => hr.1, ?_, .inr ⟨?_, rfl⟩⟩, p3, p4⟩⟩
    · rw [hlen1, maybeMerge_left, bind_ok hg, p1]
    · rw [p5, hka, hA, flat_snoc hlen]; simp [T.flat]
    · rw [hka]; simp; omega

theorem Def.tryMergeR (D : Def c io s R ch Pv f fs h d dks dts)
    (h4 : ∀ l ∈ f.B.head?, l.keys.length = 4) (hkb : f.kb ≠ []) :
    ∃ s1 ch', Side.right.maybeMerge f.a f.ka.length d ch s = (.ok (some ch'), s1) ∧
        Fixed c io s1 R ch ch' Pv f fs h dks dts := by
  have hdr := D.donorR
  rw [if_neg hkb] at hdr
  rcases D.right with ⟨h1, _⟩ | ⟨kb0, k, B0, lr, lks, lts, la, s1, hkb, hB, hlen, _, _, hg, e1, haddr, hh⟩
  · exact absurd h1 hkb
  · have hl4 : lks.length = 4 := h4 (.mk lr lks lts) (by rw [hB]; simp)
    obtain ⟨s2, ch', fts, Pn, p1, p2, p3, p4, p5⟩ := ((D.ext e1).pairR hB hkb haddr hh).merge
      (by have := D.three; omega)
    refine ⟨s2, ch', ?_, ⟨_, [Pn], _, fts, p2, fun r hr => hr.1, ?_, .inr ⟨?_, rfl⟩⟩, p3, p4⟩
    · unfold Side.maybeMerge
      rw [bind_ok hdr]
      simp only []
      rw [bind_ok hg]
      exact p1
    · rw [p5, hkb, hB]; simp [T.flat, postF]
    · rw [hkb]; simp; omega

theorem repairOne_run (D : Def c io s R ch Pv f fs h d dks dts) :
    ∃ s' ch', repairOne f.a f.ka.length d 8 ch s = (.ok ch', s') ∧
      Fixed c io s' R ch ch' Pv f fs h dks dts := by
  unfold repairOne
  obtain ⟨s1, ⟨ch', h1, F⟩ | ⟨h1, e1, hl⟩⟩ := D.tryRotL
  · rw [bind_ok h1]; exact ⟨s1, ch', rfl, F⟩
  rw [bind_ok h1]
  simp only []
  obtain ⟨s2, ⟨ch', h2, F⟩ | ⟨h2, e2, hr⟩⟩ := (D.ext e1).tryRotR
  · rw [bind_ok h2]; exact ⟨s2, ch', rfl, F⟩
  rw [bind_ok h2]
  simp only []
  obtain ⟨s3, ⟨ch', h3, F⟩ | ⟨h3, e3, hka⟩⟩ := ((D.ext e1).ext e2).tryMergeL hl
  · rw [bind_ok h3]; exact ⟨s3, ch', rfl, F⟩
  rw [bind_ok h3]
  simp only []
  have hkb : f.kb ≠ [] := by
    intro hkb
    have hfill := D.ctx.2.1
    rw [hka, hkb] at hfill
    cases hfs : fs.isEmpty with
    | true => have := hfill.2.2 hfs (by omega); simp at this
    | false => have := hfill.2.1 hfs; simp at this
  obtain ⟨s4, ch', h4, F⟩ := (((D.ext e1).ext e2).ext e3).tryMergeR hr hkb
  rw [bind_ok h4]
  exact ⟨s4, ch', rfl, F⟩

end

end Hyperbee
