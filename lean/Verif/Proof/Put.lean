import Verif.Proof.Op
/-!
# Insertion: what `put` has collected when it is about to commit
-/

namespace Hyperbee

theorem nodup_of_count_le [DecidableEq α] {l l' : List α} (h : ∀ x, l'.count x ≤ l.count x)
    (hl : l.Nodup) : l'.Nodup := by
  rw [List.nodup_iff_count_le_one] at *
  exact fun x => Nat.le_trans (h x) (hl x)

theorem Op.sub {c : List Bytes} {io : Io} {s : St} {R : Child → Prop} {as as' : List Nat}
    (h : Op c io s R as) (hc : ∀ x, as'.count x ≤ as.count x) : Op c io s R as' := by
  refine h.weaken (fun _ h => h) (nodup_of_count_le hc h.nodup) fun a ha => ?_
  have := List.count_pos_iff.mpr ha
  exact List.count_pos_iff.mp (Nat.lt_of_lt_of_le this (hc a))

/-- Decide an inequality between element counts of explicit lists. -/
macro "count_tac" : tactic => `(tactic| (intro x; simp only [List.count_append, List.count_cons,
  List.count_nil, T.refs, refsL_append, refsL, ctxRefs, List.map_cons, List.map_append]; omega))

theorem vecSet_mid (A B : List α) (x y : α) : vecSet (A ++ x :: B) A.length y = some (A ++ y :: B) := by
  simp [vecSet]

theorem setChild_run {s : St} {a : Nat} {ks : List Nat} {A B : List Child} {x : Child}
    (h : s.heap[a]? = some ⟨ks, A ++ x :: B⟩) {i : Nat} (hi : i = A.length) (y : Child) :
    setChild a i y s = (.ok (), s.wr a ⟨ks, A ++ y :: B⟩) := by
  subst hi
  unfold setChild
  rw [bind_ok (readNode_some h)]
  simp only [vecSet_mid, orPanic_some, pure_bind_run]
  rfl

theorem ctxRefs_old {c : List Bytes} {R : Child → Prop} {s : St} {fs : List Fr}
    (h : ∀ f ∈ fs, FrH c R s f) : ∀ r ∈ ctxRefs fs, r.seq < c.length ∧ R r := by
  induction fs with
  | nil => simp [ctxRefs]
  | cons f fs ih =>
    intro r hr
    simp only [ctxRefs, List.mem_append] at hr
    obtain ⟨_, hA, hB⟩ := h f (by simp)
    rcases hr with (hr | hr) | hr
    · obtain ⟨t, ht, hr⟩ := mem_refsL.mp hr
      exact ⟨(hA t ht).1.old_lt r hr, (hA t ht).2 r hr⟩
    · obtain ⟨t, ht, hr⟩ := mem_refsL.mp hr
      exact ⟨(hB t ht).1.old_lt r hr, (hB t ht).2 r hr⟩
    · exact ih (fun f hf => h f (by simp [hf])) r hr

theorem fresh_ctx {c : List Bytes} {R : Child → Prop} {s : St} {fs : List Fr}
    (h : ∀ f ∈ fs, FrH c R s f) (k : Nat) : (⟨c.length, k⟩ : Child) ∉ ctxRefs fs :=
  fun hm => absurd (ctxRefs_old h _ hm).1 (Nat.lt_irrefl _)

theorem fresh_refsL {c : List Bytes} {Pv : List Node} {ts : List T}
    (h : ∀ t ∈ ts, RepN c Pv t) {k : Nat} (hk : Pv.length ≤ k) :
    (⟨c.length, k⟩ : Child) ∉ refsL ts := by
  intro hm
  obtain ⟨t, ht, hr⟩ := mem_refsL.mp hm
  exact (h t ht).fresh hk hr

theorem propagate_run {c : List Bytes} {io : Io} {R : Child → Prop} : ∀ (fs : List Fr) (s : St)
    (ch : Changes) (Pv : List Node) (t : T) (h : Nat),
    Op c io s R (fs.map (·.a) ++ ch.nodes) → ch.seq = c.length → PendH s ch.nodes Pv →
    RepN c Pv t → (∀ r ∈ t.refs, r.seq ≠ c.length → R r) → (∀ f ∈ fs, FrH c R s f) →
    CtxGood h fs → GoodN fs.isEmpty h t → (t.refs ++ ctxRefs fs).Nodup → Pv ≠ [] →
    t.ref = ⟨c.length, Pv.length - 1⟩ →
    ∃ ch' s' Pv' t', propagate ch (fs.map Fr.step) t.ref s = (.ok ch', s') ∧
      Done c io s' ch' R Pv' t' ∧ ch'.key = ch.key ∧ ch'.value = ch.value ∧
      GoodN true (h + fs.length) t' ∧ t'.flat = preC fs ++ t.flat ++ postC fs ∧
      Pv'.length = Pv.length + fs.length := by
  intro fs
  induction fs with
  | nil =>
    intro s ch Pv t h hop hseq hp hrep hlive hfr hctx hg hnd hne href
    refine ⟨ch, s, Pv, t, rfl, ⟨by simpa using hop, hseq, hp, hrep, href, hne, ?_, hlive⟩, rfl, rfl, hg,
      by simp [preC, postC], by simp⟩
    simpa [ctxRefs] using hnd
  | cons f fs ih =>
    intro s ch Pv t h hop hseq hp hrep hlive hfr hctx hg hnd hne href
    obtain ⟨⟨hole, hheap⟩, hA, hB⟩ := hfr f (by simp)
    obtain ⟨hok, hfill, hgA, hgB, hctx'⟩ := hctx
    have hnod := hop.nodup
    simp only [List.map_cons, List.cons_append, List.nodup_cons, List.mem_append, List.mem_map,
      not_or, not_exists, not_and] at hnod
    obtain ⟨⟨hf1, hf2⟩, _⟩ := hnod
    have hlt := hop.lt f.a (by simp)
    simp only [List.map_cons, Fr.step, propagate]
    rw [bind_ok (setChild_run hheap (by simp [hok.1]) t.ref)]
    generalize hs1 : s.wr f.a ⟨f.ka ++ f.kb, f.A.map T.ref ++ t.ref :: f.B.map T.ref⟩ = s1
    let nd : Node := ⟨f.ka ++ f.kb, (f.A ++ t :: f.B).map T.ref⟩
    have hnd1 : s1.heap[f.a]? = some nd := by
      rw [← hs1, St.wr_self hlt]; simp [nd]
    have hoth : ∀ b, b ≠ f.a → s1.heap[b]? = s.heap[b]? := by
      intro b hb; rw [← hs1, St.wr_other (Ne.symm hb)]
    have hop1 : Op c io s1 R (fs.map (·.a) ++ (ch.nodes ++ [f.a])) := by
      rw [← hs1]
      refine (hop.write (a := f.a) (by simp) _).sub ?_
      count_tac
    have hp1 : PendH s1 (ch.nodes ++ [f.a]) (Pv ++ [nd]) := by
      refine (hp.same fun a ha => hoth a ?_).append hnd1
      intro e; subst e; exact hf2 ha
    let t1 : T := .mk ⟨c.length, Pv.length⟩ (f.ka ++ f.kb) (f.A ++ t :: f.B)
    have hrep1 : RepN c (Pv ++ [nd]) t1 := by
      refine .new (by simp [nd]) fun t' ht' => ?_
      rw [List.mem_append, List.mem_cons] at ht'
      rcases ht' with h | h | h
      · exact (hA t' h).1.old _
      · subst h; exact hrep.append _
      · exact (hB t' h).1.old _
    have hfr1 : ∀ g ∈ fs, FrH c R s1 g := fun g hg =>
      (hfr g (by simp [hg])).same (hoth g.a (fun e => hf1 g hg e))
    have hlive1 : ∀ r ∈ t1.refs, r.seq ≠ c.length → R r := by
      intro r hr hne
      simp only [t1, T.refs, refsL_append, refsL, List.mem_cons, List.mem_append] at hr
      rcases hr with e | hr | hr | hr
      · subst e; exact absurd rfl hne
      · obtain ⟨t', ht', hr⟩ := mem_refsL.mp hr; exact (hA t' ht').2 r hr
      · exact hlive r hr hne
      · obtain ⟨t', ht', hr⟩ := mem_refsL.mp hr; exact (hB t' ht').2 r hr
    have hg1 : GoodN fs.isEmpty (h + 1) t1 := by
      rw [goodN_mk]
      refine ⟨by simpa using hfill, ?_⟩
      simp only [Kids]
      refine ⟨by simp [hok.1, hok.2]; omega, ?_⟩
      intro t' ht'
      rw [List.mem_append, List.mem_cons] at ht'
      rcases ht' with h | h | h
      · exact hgA t' h
      · subst h; exact hg
      · exact hgB t' h
    have hnd' : (t1.refs ++ ctxRefs fs).Nodup := by
      have h1 : (⟨c.length, Pv.length⟩ : Child) ∉ t.refs ++ ctxRefs (f :: fs) := by
        rw [List.mem_append, not_or]
        exact ⟨hrep.fresh (Nat.le_refl _), fresh_ctx hfr _⟩
      refine nodup_of_count_le (l := ⟨c.length, Pv.length⟩ :: (t.refs ++ ctxRefs (f :: fs))) ?_
        (List.nodup_cons.mpr ⟨h1, hnd⟩)
      simp only [t1]
      count_tac
    have hadd : ch.addNode f.a = ({ ch with nodes := ch.nodes ++ [f.a] }, t1.ref) := by
      simp [Changes.addNode, t1, T.ref, hseq, hp.len]
    rw [hadd]
    obtain ⟨ch', s', Pv', t', h1, h2, h3, h4, h5, h6, h7⟩ := ih s1 { ch with nodes := ch.nodes ++ [f.a] }
      (Pv ++ [nd]) t1 (h + 1) hop1 hseq hp1 hrep1 hlive1 hfr1 hctx' hg1 hnd' (by simp)
      (by simp [t1, T.ref])
    refine ⟨ch', s', Pv', t', h1, h2, h3, h4, ?_, ?_, ?_⟩
    · rw [List.length_cons, show h + (fs.length + 1) = h + 1 + fs.length by omega]; exact h5
    · rw [h6]
      simp only [t1, T.flat, flatL_hole hok.1 hok.2, preC, postC, List.append_assoc]
    · rw [h7]; simp; omega

theorem flatL_split {lks : List Nat} {lts : List T} (h : lts.length = lks.length + 1) (k : Nat)
    (rks : List Nat) (rts : List T) :
    flatL (lks ++ k :: rks) (lts ++ rts) = flatL lks lts ++ k :: flatL rks rts := by
  have hne : lts ≠ [] := by intro e; simp [e] at h
  obtain ⟨A, t, rfl⟩ : ∃ A t, lts = A ++ [t] :=
    ⟨lts.dropLast, lts.getLast hne, (List.dropLast_append_getLast hne).symm⟩
  have hA : A.length = lks.length := by simpa using h
  have h1 := flatL_pre hA [] [t]
  rw [List.append_nil] at h1
  rw [List.append_assoc, flatL_pre hA, h1]
  simp [flatL]

theorem nodeInsert_run {s : St} {a : Nat} {n : Node} (hn : s.heap[a]? = some n) {q i j : Nat}
    {ks : List Nat} (hk : vecSplice n.keys i j [q] = some ks) {new cs : List Child}
    (hc : childrenInsert n.children i new = some cs) :
    nodeInsert a q new i j s = (.ok (), s.wr a ⟨ks, cs⟩) := by
  unfold nodeInsert
  rw [bind_ok (readNode_some hn), hk]
  simp only [orPanic_some, pure_bind_run, hc]
  rfl

theorem vecSplice_ins (ka kb : List α) (q : α) :
    vecSplice (ka ++ kb) ka.length ka.length [q] = some (ka ++ q :: kb) := by
  simp [vecSplice]

theorem vecSplice_rep (ka kb : List α) (q0 : α) (new : List α) :
    vecSplice (ka ++ q0 :: kb) ka.length (ka.length + 1) new = some (ka ++ new ++ kb) := by
  simp [vecSplice]

theorem split_run {s : St} {a : Nat} {lks rks : List Nat} {mid : Nat} {lcs rcs : List Child}
    (h : s.heap[a]? = some ⟨lks ++ mid :: rks, lcs ++ rcs⟩)
    (hk : (lks.length + 1 + rks.length) / 2 = lks.length)
    (hc : (lcs.length + rcs.length) / 2 = lcs.length) :
    split a s = (.ok (s.heap.length, mid, s.heap.length + 1),
      ((s.wr a ⟨[], []⟩).al ⟨lks, lcs⟩).al ⟨rks, rcs⟩) := by
  unfold split
  rw [bind_ok (readNode_some h)]
  have h1 : (lks ++ mid :: rks).length >>> 1 = lks.length := by
    simp [Nat.shiftRight_succ]; omega
  have h2 : (lcs ++ rcs).length >>> 1 = lcs.length := by
    simp [Nat.shiftRight_succ]; omega
  simp only [h1, h2]
  simp only [List.take_left', List.drop_left', vecRemove,
    List.getElem?_cons_zero, orPanic_some, pure_bind_run]
  rw [bind_ok (writeNode_wr _ _ _), bind_ok (alloc_al _ _), bind_ok (alloc_al _ _)]
  simp [St.al_len, St.wr_len]

theorem kids_split {h : Nat} {ts : List T} {a b : Nat} (hk : Kids h ts (a + b + 1)) :
    ∃ lts rts, ts = lts ++ rts ∧ Kids h lts a ∧ Kids h rts b ∧
      ((h = 0 ∧ lts = [] ∧ rts = []) ∨ (lts.length = a + 1 ∧ rts.length = b + 1)) := by
  cases h with
  | zero => simp only [Kids] at hk; subst hk; exact ⟨[], [], by simp [Kids]⟩
  | succ h =>
    simp only [Kids] at hk
    refine ⟨ts.take (a + 1), ts.drop (a + 1), (List.take_append_drop _ _).symm, ?_, ?_, .inr ?_⟩
    · simp only [Kids]
      exact ⟨by simp; omega, fun t ht => hk.2 t (List.mem_of_mem_take ht)⟩
    · simp only [Kids]
      exact ⟨by simp; omega, fun t ht => hk.2 t (List.mem_of_mem_drop ht)⟩
    · simp; omega

theorem putOpen_run {c : List Bytes} {io : Io} {R : Child → Prop} : ∀ (fs : List Fr) (s : St)
    (ch : Changes) (Pv : List Node) (q a : Nat) (ka kb : List Nat) (cs new : List Child)
    (ts : List T) (h : Nat),
    Op c io s R (a :: (fs.map (·.a) ++ ch.nodes)) → ch.seq = c.length → PendH s ch.nodes Pv →
    s.heap[a]? = some ⟨ka ++ kb, cs⟩ → childrenInsert cs ka.length new = some (ts.map T.ref) →
    (∀ t ∈ ts, RepN c Pv t) → (∀ r ∈ refsL ts, r.seq ≠ c.length → R r) →
    (∀ f ∈ fs, FrH c R s f) →
    CtxGood h fs → Kids h ts (ka.length + kb.length + 1) →
    Fill fs.isEmpty h (ka.length + kb.length) → (refsL ts ++ ctxRefs fs).Nodup →
    ∃ ch' s' Pv' t' H, putLoop false ((a, ka.length) :: fs.map Fr.step) ch q new s = (.ok ch', s') ∧
      Done c io s' ch' R Pv' t' ∧ ch'.key = ch.key ∧ ch'.value = ch.value ∧
      GoodN true H t' ∧ t'.flat = preC fs ++ flatL (ka ++ q :: kb) ts ++ postC fs ∧
      Pv'.length ≤ Pv.length + 2 * (fs.length + 1) + 1 ∧ H ≤ h + fs.length + 1 := by
  intro fs
  induction fs with
  | nil =>
    intro s ch Pv q a ka kb cs new ts h hop hseq hp hheap hci hrep hlive hfr hctx hkids hfill hnd
    have hlt := hop.lt a (by simp)
    have hnod := hop.nodup
    simp only [List.map_nil, List.nil_append, List.nodup_cons] at hnod
    simp only [List.map_nil, putLoop]
    rw [bind_ok (readNode_some hheap)]
    by_cases hroom : (ka ++ kb).length < MAX_KEYS
    · rw [if_pos (.inr hroom)]
      simp only [Bool.false_eq_true, if_false]
      rw [bind_ok (nodeInsert_run hheap (vecSplice_ins ka kb q) hci)]
      generalize hs1 : s.wr a ⟨ka ++ q :: kb, ts.map T.ref⟩ = s1
      have hnd1 : s1.heap[a]? = some ⟨ka ++ q :: kb, ts.map T.ref⟩ := by
        rw [← hs1, St.wr_self hlt]
      have hoth : ∀ b, b ≠ a → s1.heap[b]? = s.heap[b]? := by
        intro b hb; rw [← hs1, St.wr_other (Ne.symm hb)]
      simp only [Changes.addNode, List.isEmpty_nil, if_true]
      let t1 : T := .mk ⟨c.length, Pv.length⟩ (ka ++ q :: kb) ts
      refine ⟨_, s1, Pv ++ [⟨ka ++ q :: kb, ts.map T.ref⟩], t1, h, rfl,
        ⟨?_, hseq, ?_, ?_, ?_, by simp, ?_, ?_⟩, rfl, rfl, ?_, ?_, ?_, by simp⟩
      · rw [← hs1]
        refine (hop.write (a := a) (by simp) _).sub ?_
        count_tac
      · refine (hp.same fun b hb => hoth b ?_).append hnd1
        intro e; subst e; exact hnod.1 hb
      · exact .new (by simp) fun t ht => (hrep t ht).append _
      · simp [t1, T.ref]
      · simp only [t1, T.refs, List.nodup_cons]
        exact ⟨fresh_refsL hrep (Nat.le_refl _), by simpa [ctxRefs] using hnd⟩
      · intro r hr hne
        simp only [t1, T.refs, List.mem_cons] at hr
        rcases hr with e | hr
        · subst e; exact absurd rfl hne
        · exact hlive r hr hne
      · rw [goodN_mk]
        simp only [List.length_append, MAX_KEYS] at hroom
        simp only [List.isEmpty_nil] at hfill
        refine ⟨⟨by simp; omega, by simp, by simp; omega⟩, ?_⟩
        simpa [Nat.add_assoc] using hkids
      · simp [t1, T.flat, preC, postC]
      · simp
    · rw [if_neg (by simp only [Bool.false_eq_true, false_or]; exact hroom)]
      rw [bind_ok (nodeInsert_run hheap (vecSplice_ins ka kb q) hci)]
      simp only [List.length_append, MAX_KEYS] at hroom
      have hlen : ka.length + kb.length = 8 := by have := hfill.1; omega
      rw [hlen] at hkids
      obtain ⟨lts, rts, rfl, hkl, hkr, hcase⟩ := kids_split (a := 4) (b := 4) hkids
      obtain ⟨lks, mid, rks, hks, hlk, hrk⟩ : ∃ lks mid rks, ka ++ q :: kb = lks ++ mid :: rks ∧
          lks.length = 4 ∧ rks.length = 4 := by
        have hl9 : (ka ++ q :: kb).length = 9 := by simp; omega
        refine ⟨(ka ++ q :: kb).take 4, (ka ++ q :: kb)[4], (ka ++ q :: kb).drop 5, ?_, ?_, ?_⟩
        · rw [List.getElem_cons_drop, List.take_append_drop]
        · rw [List.length_take]; omega
        · rw [List.length_drop]; omega
      generalize hs1 : s.wr a ⟨ka ++ q :: kb, (lts ++ rts).map T.ref⟩ = s1
      have hop1 : Op c io s1 R (a :: ch.nodes) := by
        rw [← hs1]; exact (by simpa using hop : Op c io s R (a :: ch.nodes)).write (by simp) _
      have hnd1 : s1.heap[a]? = some ⟨lks ++ mid :: rks, lts.map T.ref ++ rts.map T.ref⟩ := by
        rw [← hs1, St.wr_self hlt, hks, List.map_append]
      have hlen1 : s1.heap.length = s.heap.length := by rw [← hs1, St.wr_len]
      rw [bind_ok (split_run hnd1 (by omega) (by
        rcases hcase with ⟨_, h2, h3⟩ | ⟨h2, h3⟩
        · subst h2 h3; simp
        · simp only [List.length_map]; omega))]
      simp only [Changes.addNode, List.length_append, List.length_cons, List.length_nil, Nat.zero_add]
      rw [bind_ok (alloc_al _ _)]
      generalize hs2 : s1.wr a ⟨[], []⟩ = s2
      have hop2 : Op c io s2 R (a :: ch.nodes) := by rw [← hs2]; exact hop1.write (by simp) _
      have hlen2 : s2.heap.length = s.heap.length := by rw [← hs2, St.wr_len, hlen1]
      rw [hlen1]
      have hop3 := ((hop2.alloc ⟨lks, lts.map T.ref⟩).alloc ⟨rks, rts.map T.ref⟩).alloc
        ⟨[mid], [⟨ch.seq, ch.nodes.length⟩, ⟨ch.seq, ch.nodes.length + 1⟩]⟩
      simp only [St.al_len, hlen2] at hop3
      let L : T := .mk ⟨c.length, Pv.length⟩ lks lts
      let Q : T := .mk ⟨c.length, Pv.length + 1⟩ rks rts
      let t1 : T := .mk ⟨c.length, Pv.length + 2⟩ [mid] [L, Q]
      have hold : ∀ b, b < s.heap.length → b ≠ a →
          (((s2.al ⟨lks, lts.map T.ref⟩).al ⟨rks, rts.map T.ref⟩).al
            ⟨[mid], [⟨ch.seq, ch.nodes.length⟩, ⟨ch.seq, ch.nodes.length + 1⟩]⟩).heap[b]?
            = s.heap[b]? := by
        intro b hb hba
        rw [St.al_other (by simp only [St.al_len]; omega), St.al_other (by simp only [St.al_len]; omega),
          St.al_other (by omega), ← hs2, St.wr_other (Ne.symm hba), ← hs1, St.wr_other (Ne.symm hba)]
      refine ⟨_, _, Pv ++ [⟨lks, lts.map T.ref⟩, ⟨rks, rts.map T.ref⟩, ⟨[mid], [L.ref, Q.ref]⟩], t1, h + 1, rfl,
        ⟨?_, hseq, ?_, ?_, ?_, by simp, ?_, ?_⟩, rfl, rfl, ?_, ?_, by simp, by simp⟩
      · simp only [St.al_len, hlen2]
        refine hop3.sub ?_
        count_tac
      · have hp0 := hp.same (s' := (((s2.al ⟨lks, lts.map T.ref⟩).al ⟨rks, rts.map T.ref⟩).al
            ⟨[mid], [⟨ch.seq, ch.nodes.length⟩, ⟨ch.seq, ch.nodes.length + 1⟩]⟩)) (fun b hb =>
            hold b (hop.lt b (by simp [hb])) (fun e => hnod.1 (e ▸ hb)))
        have e1 := (hp0.append (a := s.heap.length) (n := ⟨lks, lts.map T.ref⟩) (by
          rw [St.al_other (by simp only [St.al_len]; omega), St.al_other (by simp only [St.al_len]; omega), ← hlen2, St.al_self]))
        have e2 := e1.append (a := s.heap.length + 1) (n := ⟨rks, rts.map T.ref⟩) (by
          rw [St.al_other (by simp only [St.al_len]; omega),
            show s.heap.length + 1 = (s2.al ⟨lks, lts.map T.ref⟩).heap.length by rw [St.al_len, hlen2],
            St.al_self])
        have e3 := e2.append (a := ((s2.al ⟨lks, lts.map T.ref⟩).al ⟨rks, rts.map T.ref⟩).heap.length)
          (n := ⟨[mid], [L.ref, Q.ref]⟩) (by
            rw [St.al_self]; simp [L, Q, T.ref, hseq, hp.len])
        simpa [List.append_assoc] using e3
      · refine .new ?_ ?_
        · simp
        · intro t ht
          simp only [List.mem_cons, List.not_mem_nil, or_false] at ht
          rcases ht with e | e
          · subst e
            exact .new (by simp) fun t ht => (hrep t (by simp [ht])).append _
          · subst e
            exact .new (by simp) fun t ht => (hrep t (by simp [ht])).append _
      · simp [t1, T.ref]
      · have f0 := fresh_refsL hrep (Nat.le_refl _)
        have f1 := fresh_refsL hrep (Nat.le_succ Pv.length)
        have f2 := fresh_refsL hrep (k := Pv.length + 2) (by omega)
        refine nodup_of_count_le (l := ⟨c.length, Pv.length⟩ :: ⟨c.length, Pv.length + 1⟩
          :: ⟨c.length, Pv.length + 2⟩ :: (refsL (lts ++ rts))) ?_ ?_
        · simp only [t1, L, Q]; count_tac
        · simp only [List.nodup_cons, List.mem_cons, not_or]
          refine ⟨⟨by simp, by simp, f0⟩, ⟨by simp, f1⟩, f2, ?_⟩
          simpa [ctxRefs] using hnd
      · intro r hr hne
        simp only [t1, L, Q, T.refs, refsL, List.mem_cons, List.mem_append, List.not_mem_nil, or_false] at hr
        rcases hr with e | (e | hr) | (e | hr)
        · subst e; exact absurd rfl hne
        · subst e; exact absurd rfl hne
        · exact hlive r (by simp [refsL_append, hr]) hne
        · subst e; exact absurd rfl hne
        · exact hlive r (by simp [refsL_append, hr]) hne
      · rw [goodN_mk]
        refine ⟨⟨by simp, by simp, by simp⟩, ?_⟩
        simp only [Kids]
        refine ⟨by simp, ?_⟩
        intro t ht
        simp only [List.mem_cons, List.not_mem_nil, or_false] at ht
        rcases ht with e | e
        · subst e; rw [goodN_mk]; exact ⟨⟨by omega, by omega, by simp⟩, by rw [hlk]; exact hkl⟩
        · subst e; rw [goodN_mk]; exact ⟨⟨by omega, by omega, by simp⟩, by rw [hrk]; exact hkr⟩
      · simp only [t1, T.flat, flatL, L, Q, preC, postC, List.append_nil, List.nil_append]
        rw [hks]
        rcases hcase with ⟨_, h2, h3⟩ | ⟨h2, h3⟩
        · subst h2 h3; simp [flatL_nil]
        · rw [flatL_split (by omega)]
  | cons f fs ih =>
    intro s ch Pv q a ka kb cs new ts h hop hseq hp hheap hci hrep hlive hfr hctx hkids hfill hnd
    have hlt := hop.lt a (by simp)
    have hnod := hop.nodup
    simp only [List.map_cons, List.nodup_cons, List.mem_append, List.mem_cons, List.mem_map, not_or,
      not_exists, not_and, List.cons_append] at hnod
    obtain ⟨⟨hna1, hna2, hna3⟩, _⟩ := hnod
    rw [putLoop]
    rw [bind_ok (readNode_some hheap)]
    by_cases hroom : (ka ++ kb).length < MAX_KEYS
    · rw [if_pos (.inr hroom)]
      simp only [Bool.false_eq_true, if_false]
      rw [bind_ok (nodeInsert_run hheap (vecSplice_ins ka kb q) hci)]
      generalize hs1 : s.wr a ⟨ka ++ q :: kb, ts.map T.ref⟩ = s1
      have hnd1 : s1.heap[a]? = some ⟨ka ++ q :: kb, ts.map T.ref⟩ := by
        rw [← hs1, St.wr_self hlt]
      have hoth : ∀ b, b ≠ a → s1.heap[b]? = s.heap[b]? := by
        intro b hb; rw [← hs1, St.wr_other (Ne.symm hb)]
      let t1 : T := .mk ⟨c.length, Pv.length⟩ (ka ++ q :: kb) ts
      have hadd : ch.addNode a = ({ ch with nodes := ch.nodes ++ [a] }, t1.ref) := by
        simp [Changes.addNode, t1, T.ref, hseq, hp.len]
      rw [hadd]
      simp only [List.map_cons, List.isEmpty_cons, Bool.false_eq_true, if_false]
      rw [← List.map_cons]
      obtain ⟨ch', s', Pv', t', h1, h2, h3, h4, h5, h6, h7⟩ := propagate_run (f :: fs) s1
        { ch with nodes := ch.nodes ++ [a] } (Pv ++ [⟨ka ++ q :: kb, ts.map T.ref⟩]) t1 h
        (by
          rw [← hs1]
          refine (hop.write (a := a) (by simp) _).sub ?_
          count_tac) hseq
        (by
          refine (hp.same fun b hb => hoth b ?_).append hnd1
          intro e; subst e; exact hna3 hb)
        (.new (by simp) fun t ht => (hrep t ht).append _)
        (by
          intro r hr hne
          simp only [t1, T.refs, List.mem_cons] at hr
          rcases hr with e | hr
          · subst e; exact absurd rfl hne
          · exact hlive r hr hne)
        (by
          intro g hg
          refine (hfr g hg).same (hoth g.a ?_)
          rcases List.mem_cons.mp hg with e | hg
          · subst e; exact fun e => hna1 e.symm
          · exact fun e => hna2 g hg e)
        hctx
        (by
          rw [goodN_mk]
          simp only [List.length_append, MAX_KEYS] at hroom
          obtain ⟨f1, f2, f3⟩ := hfill
          refine ⟨⟨by simp; omega, fun e => by have := f2 e; simp; omega,
            fun e => by simp at e⟩, ?_⟩
          simpa [Nat.add_assoc] using hkids)
        (by
          simp only [t1, T.refs, List.cons_append, List.nodup_cons, List.mem_append, not_or]
          exact ⟨⟨fresh_refsL hrep (Nat.le_refl _), fresh_ctx hfr _⟩, hnd⟩)
        (by simp) (by simp [t1, T.ref])
      refine ⟨ch', s', Pv', t', _, h1, h2, h3, h4, h5, ?_, ?_, ?_⟩
      · rw [h6]; simp [t1, T.flat]
      · rw [h7]; simp; omega
      · omega
    · rw [if_neg (by simp only [Bool.false_eq_true, false_or]; exact hroom)]
      rw [bind_ok (nodeInsert_run hheap (vecSplice_ins ka kb q) hci)]
      simp only [List.length_append, MAX_KEYS] at hroom
      have hlen : ka.length + kb.length = 8 := by have := hfill.1; omega
      rw [hlen] at hkids
      obtain ⟨lts, rts, rfl, hkl, hkr, hcase⟩ := kids_split (a := 4) (b := 4) hkids
      obtain ⟨lks, mid, rks, hks, hlk, hrk⟩ : ∃ lks mid rks, ka ++ q :: kb = lks ++ mid :: rks ∧
          lks.length = 4 ∧ rks.length = 4 := by
        have hl9 : (ka ++ q :: kb).length = 9 := by simp; omega
        refine ⟨(ka ++ q :: kb).take 4, (ka ++ q :: kb)[4], (ka ++ q :: kb).drop 5, ?_, ?_, ?_⟩
        · rw [List.getElem_cons_drop, List.take_append_drop]
        · rw [List.length_take]; omega
        · rw [List.length_drop]; omega
      generalize hs1 : s.wr a ⟨ka ++ q :: kb, (lts ++ rts).map T.ref⟩ = s1
      have hop1 : Op c io s1 R (a :: ((f :: fs).map (·.a) ++ ch.nodes)) := by
        rw [← hs1]; exact hop.write (by simp) _
      have hnd1 : s1.heap[a]? = some ⟨lks ++ mid :: rks, lts.map T.ref ++ rts.map T.ref⟩ := by
        rw [← hs1, St.wr_self hlt, hks, List.map_append]
      have hlen1 : s1.heap.length = s.heap.length := by rw [← hs1, St.wr_len]
      rw [bind_ok (split_run hnd1 (by omega) (by
        rcases hcase with ⟨_, h2, h3⟩ | ⟨h2, h3⟩
        · subst h2 h3; simp
        · simp only [List.length_map]; omega))]
      rw [hlen1]
      generalize hs2 : s1.wr a ⟨[], []⟩ = s2
      have hop2 : Op c io s2 R (a :: ((f :: fs).map (·.a) ++ ch.nodes)) := by
        rw [← hs2]; exact hop1.write (by simp) _
      have hlen2 : s2.heap.length = s.heap.length := by rw [← hs2, St.wr_len, hlen1]
      generalize hs3 : (s2.al ⟨lks, lts.map T.ref⟩).al ⟨rks, rts.map T.ref⟩ = s3
      have hop3 := (hop2.alloc ⟨lks, lts.map T.ref⟩).alloc ⟨rks, rts.map T.ref⟩
      simp only [St.al_len, hlen2, hs3] at hop3
      let L : T := .mk ⟨c.length, Pv.length⟩ lks lts
      let Q : T := .mk ⟨c.length, Pv.length + 1⟩ rks rts
      have hold : ∀ b, b < s.heap.length → b ≠ a → s3.heap[b]? = s.heap[b]? := by
        intro b hb hba
        rw [← hs3, St.al_other (by simp only [St.al_len]; omega),
          St.al_other (by omega), ← hs2, St.wr_other (Ne.symm hba), ← hs1, St.wr_other (Ne.symm hba)]
      have hch : ({ ch with nodes := ch.nodes ++ [s.heap.length] } : Changes).addNode (s.heap.length + 1)
          = ({ ch with nodes := ch.nodes ++ [s.heap.length, s.heap.length + 1] }, Q.ref) := by
        simp [Changes.addNode, Q, T.ref, hseq, hp.len]
      have hadd : ch.addNode s.heap.length
          = ({ ch with nodes := ch.nodes ++ [s.heap.length] }, L.ref) := by
        simp [Changes.addNode, L, T.ref, hseq, hp.len]
      simp only [hadd, hch]
      obtain ⟨⟨hole, hfh⟩, hfA, hfB⟩ := hfr f (by simp)
      obtain ⟨hok, hffill, hgA, hgB, hctx'⟩ := hctx
      have hfa : s3.heap[f.a]? = s.heap[f.a]? := hold _ (hop.lt f.a (by simp)) (fun e => hna1 e.symm)
      have hrepN : ∀ t ∈ f.A ++ L :: Q :: f.B,
          RepN c (Pv ++ [⟨lks, lts.map T.ref⟩, ⟨rks, rts.map T.ref⟩]) t := by
        intro t ht
        simp only [List.mem_append, List.mem_cons] at ht
        rcases ht with ht | e | e | ht
        · exact (hfA t ht).1.old _
        · subst e
          exact .new (by simp) fun t ht => (hrep t (by simp [ht])).append _
        · subst e
          exact .new (by simp) fun t ht => (hrep t (by simp [ht])).append _
        · exact (hfB t ht).1.old _
      obtain ⟨ch', s', Pv', t', H, h1, h2, h3, h4, h5, h6, h7, h8⟩ := ih s3
        { ch with nodes := ch.nodes ++ [s.heap.length, s.heap.length + 1] }
        (Pv ++ [⟨lks, lts.map T.ref⟩, ⟨rks, rts.map T.ref⟩]) mid f.a f.ka f.kb
        (f.A.map T.ref ++ hole :: f.B.map T.ref) [L.ref, Q.ref] (f.A ++ L :: Q :: f.B) (h + 1)
        (by refine hop3.sub ?_; count_tac) hseq
        (by
          have hp0 := hp.same (s' := s3) (fun b hb =>
            hold b (hop.lt b (by simp [hb])) (fun e => hna3 (e ▸ hb)))
          have e1 := (hp0.append (a := s.heap.length) (n := ⟨lks, lts.map T.ref⟩) (by
            rw [← hs3, St.al_other (by simp only [St.al_len]; omega), ← hlen2, St.al_self]))
          have e2 := e1.append (a := s.heap.length + 1) (n := ⟨rks, rts.map T.ref⟩) (by
            rw [← hs3, show s.heap.length + 1 = (s2.al ⟨lks, lts.map T.ref⟩).heap.length by
              rw [St.al_len, hlen2], St.al_self])
          simpa [List.append_assoc] using e2)
        (by rw [hfa, hfh])
        (by
          simp only [childrenInsert, List.isEmpty_cons, Bool.false_eq_true, if_false]
          have := vecSplice_rep (f.A.map T.ref) (f.B.map T.ref) hole [L.ref, Q.ref]
          rw [List.length_map, hok.1] at this
          rw [this]; simp)
        hrepN
        (by
          intro r hr hne
          simp only [L, Q, T.refs, refsL_append, refsL, List.mem_cons, List.mem_append] at hr
          rcases hr with hr | (e | hr) | (e | hr) | hr
          · obtain ⟨t', ht', hr⟩ := mem_refsL.mp hr; exact (hfA t' ht').2 r hr
          · subst e; exact absurd rfl hne
          · exact hlive r (by simp [refsL_append, hr]) hne
          · subst e; exact absurd rfl hne
          · exact hlive r (by simp [refsL_append, hr]) hne
          · obtain ⟨t', ht', hr⟩ := mem_refsL.mp hr; exact (hfB t' ht').2 r hr)
        (fun g hg => (hfr g (by simp [hg])).same
          (hold _ (hop.lt g.a (by simp; exact .inr (.inr (.inl ⟨g, hg, rfl⟩)))) (fun e => hna2 g hg e)))
        hctx'
        (by
          simp only [Kids]
          refine ⟨by simp [hok.1, hok.2]; omega, ?_⟩
          intro t ht
          simp only [List.mem_append, List.mem_cons] at ht
          rcases ht with ht | e | e | ht
          · exact hgA t ht
          · subst e; rw [goodN_mk]; exact ⟨⟨by omega, by omega, by simp⟩, by rw [hlk]; exact hkl⟩
          · subst e; rw [goodN_mk]; exact ⟨⟨by omega, by omega, by simp⟩, by rw [hrk]; exact hkr⟩
          · exact hgB t ht)
        hffill
        (by
          have f0 := fresh_refsL hrep (Nat.le_refl _)
          have f1 := fresh_refsL hrep (Nat.le_succ Pv.length)
          have g0 := fresh_ctx hfr Pv.length
          have g1 := fresh_ctx hfr (Pv.length + 1)
          refine nodup_of_count_le (l := ⟨c.length, Pv.length⟩ :: ⟨c.length, Pv.length + 1⟩
            :: (refsL (lts ++ rts) ++ ctxRefs (f :: fs))) ?_ ?_
          · simp only [L, Q]; count_tac
          · simp only [List.nodup_cons, List.mem_cons, List.mem_append, not_or]
            exact ⟨⟨by simp, f0, g0⟩, ⟨f1, g1⟩, hnd⟩)
      refine ⟨ch', s', Pv', t', H, h1, h2, h3, h4, h5, ?_, ?_, ?_⟩
      · rw [h6, flatL_pre hok.1, flatL, flatL_post hok.2]
        simp only [L, Q, T.flat, preC, postC, hks]
        rcases hcase with ⟨_, h2, h3⟩ | ⟨h2, h3⟩
        · subst h2 h3; simp [flatL_nil]
        · rw [flatL_split (by omega)]; simp
      · simp only [List.length_append, List.length_cons, List.length_nil] at h7 ⊢; omega
      · simp only [List.length_cons]; omega

/-- Adding an owned node whose subtrees are ready to the changes, then propagating to the root. -/
theorem addUp_run {c : List Bytes} {io : Io} {R : Child → Prop} (fs : List Fr) (s : St)
    (ch : Changes) (Pv : List Node) (a : Nat) (ks : List Nat) (ts : List T) (h : Nat)
    (hop : Op c io s R (a :: (fs.map (·.a) ++ ch.nodes))) (hseq : ch.seq = c.length)
    (hp : PendH s ch.nodes Pv) (hheap : s.heap[a]? = some ⟨ks, ts.map T.ref⟩)
    (hrep : ∀ t ∈ ts, RepN c Pv t) (hlive : ∀ r ∈ refsL ts, r.seq ≠ c.length → R r)
    (hfr : ∀ f ∈ fs, FrH c R s f) (hctx : CtxGood h fs) (hkids : Kids h ts ks.length)
    (hfill : Fill fs.isEmpty h ks.length) (hnd : (refsL ts ++ ctxRefs fs).Nodup) :
    ∃ ch' s' Pv' t', propagate (ch.addNode a).1 (fs.map Fr.step) (ch.addNode a).2 s = (.ok ch', s') ∧
      Done c io s' ch' R Pv' t' ∧ ch'.key = ch.key ∧ ch'.value = ch.value ∧
      GoodN true (h + fs.length) t' ∧ t'.flat = preC fs ++ flatL ks ts ++ postC fs ∧
      Pv'.length = Pv.length + fs.length + 1 := by
  let t1 : T := .mk ⟨c.length, Pv.length⟩ ks ts
  have hadd : ch.addNode a = ({ ch with nodes := ch.nodes ++ [a] }, t1.ref) := by
    simp [Changes.addNode, t1, T.ref, hseq, hp.len]
  rw [hadd]
  obtain ⟨ch', s', Pv', t', h1, h2, h3, h4, h5, h6, h7⟩ := propagate_run fs s
    { ch with nodes := ch.nodes ++ [a] } (Pv ++ [⟨ks, ts.map T.ref⟩]) t1 h
    (by refine hop.sub ?_; count_tac) hseq (hp.append hheap)
    (.new (by simp) fun t ht => (hrep t ht).append _)
    (by
      intro r hr hne
      simp only [t1, T.refs, List.mem_cons] at hr
      rcases hr with e | hr
      · subst e; exact absurd rfl hne
      · exact hlive r hr hne)
    hfr hctx (goodN_mk.mpr ⟨hfill, hkids⟩)
    (by
      simp only [t1, T.refs, List.cons_append, List.nodup_cons, List.mem_append, not_or]
      exact ⟨⟨fresh_refsL hrep (Nat.le_refl _), fresh_ctx hfr _⟩, hnd⟩)
    (by simp) (by simp [t1, T.ref])
  refine ⟨ch', s', Pv', t', h1, h2, h3, h4, h5, ?_, ?_⟩
  · rw [h6]; simp [t1, T.flat]
  · rw [h7]; simp; omega

theorem putHit_run {c : List Bytes} {io : Io} {R : Child → Prop} (fs : List Fr) (s : St)
    (ch : Changes) (Pv : List Node) (q q0 a : Nat) (ka kb : List Nat) (ts : List T) (h : Nat)
    (hop : Op c io s R (a :: (fs.map (·.a) ++ ch.nodes))) (hseq : ch.seq = c.length)
    (hp : PendH s ch.nodes Pv) (hheap : s.heap[a]? = some ⟨ka ++ q0 :: kb, ts.map T.ref⟩)
    (hrep : ∀ t ∈ ts, RepN c Pv t) (hlive : ∀ r ∈ refsL ts, r.seq ≠ c.length → R r)
    (hfr : ∀ f ∈ fs, FrH c R s f) (hctx : CtxGood h fs) (hkids : Kids h ts (ka ++ q0 :: kb).length)
    (hfill : Fill fs.isEmpty h (ka ++ q0 :: kb).length) (hnd : (refsL ts ++ ctxRefs fs).Nodup) :
    ∃ ch' s' Pv' t', putLoop true ((a, ka.length) :: fs.map Fr.step) ch q [] s = (.ok ch', s') ∧
      Done c io s' ch' R Pv' t' ∧ ch'.key = ch.key ∧ ch'.value = ch.value ∧
      GoodN true (h + fs.length) t' ∧ t'.flat = preC fs ++ flatL (ka ++ q :: kb) ts ++ postC fs ∧
      Pv'.length = Pv.length + fs.length + 1 := by
  have hlt := hop.lt a (by simp)
  have hnod := hop.nodup
  simp only [List.nodup_cons, List.mem_append, List.mem_map, not_or, not_exists, not_and] at hnod
  obtain ⟨⟨hna1, hna2⟩, _⟩ := hnod
  rw [putLoop, bind_ok (readNode_some hheap), if_pos (.inl rfl)]
  simp only [if_true]
  rw [bind_ok (nodeInsert_run hheap (vecSplice_rep ka kb q0 [q]) (cs := ts.map T.ref)
    (by simp [childrenInsert]))]
  generalize hs1 : s.wr a ⟨ka ++ [q] ++ kb, ts.map T.ref⟩ = s1
  have hoth : ∀ b, b ≠ a → s1.heap[b]? = s.heap[b]? := by
    intro b hb; rw [← hs1, St.wr_other (Ne.symm hb)]
  obtain ⟨ch', s', Pv', t', h1, h2, h3, h4, h5, h6, h7⟩ := addUp_run fs s1 ch Pv a (ka ++ q :: kb) ts h
    (by rw [← hs1]; exact hop.write (by simp) _) hseq
    (hp.same fun b hb => hoth b (fun e => hna2 (e ▸ hb)))
    (by rw [← hs1, St.wr_self hlt]; simp) hrep hlive
    (fun g hg => (hfr g hg).same (hoth g.a (fun e => hna1 g hg e))) hctx
    (by simpa using hkids) (by simpa using hfill) hnd
  refine ⟨ch', s', Pv', t', ?_, h2, h3, h4, h5, h6, h7⟩
  rw [← h1]
  cases fs with
  | nil => rfl
  | cons f fs => rfl

theorem putNew_run {c : List Bytes} {io : Io} {R : Child → Prop} (s : St) (ch : Changes) (q : Nat)
    (hop : Op c io s R []) (hseq : ch.seq = c.length) (hn : ch.nodes = []) :
    ∃ ch' s' Pv' t', putLoop false [] ch q [] s = (.ok ch', s') ∧
      Done c io s' ch' R Pv' t' ∧ ch'.key = ch.key ∧ ch'.value = ch.value ∧
      GoodN true 0 t' ∧ t'.flat = [q] ∧ Pv'.length = 1 := by
  rw [putLoop, bind_ok (alloc_al _ _)]
  refine ⟨_, _, [⟨[q], []⟩], .mk ⟨c.length, 0⟩ [q] [], rfl,
    ⟨?_, hseq, ?_, ?_, ?_, by simp, ?_, ?_⟩, rfl, rfl, ?_, ?_, by simp⟩
  · simp only [hn]; exact hop.alloc _
  · simp only [hn]; exact (PendH.nil _).append (St.al_self _ _)
  · exact .new (by simp) (by simp)
  · simp [T.ref]
  · simp [T.refs, refsL]
  · intro r hr hne
    simp [T.refs, refsL] at hr; subst hr; exact absurd rfl hne
  · rw [goodN_mk]; simp [Fill, Kids]
  · simp [T.flat, flatL]

end Hyperbee
