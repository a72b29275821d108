import Verif.Proof.Put
import Mathlib.Data.List.Perm.Subperm
/-!
# Committing: renumbering the collected nodes in pre-order and writing the block
-/

namespace Hyperbee

mutual
/-- How many nodes of the tree are new (have block number `v`). -/
def T.cnt (v : Nat) : T → Nat
  | .mk _ _ ts => 1 + cntL v ts
def cntL (v : Nat) : List T → Nat
  | [] => 0
  | t :: ts => (if t.ref.seq = v then t.cnt v else 0) + cntL v ts
end

mutual
/-- The tree with its new nodes renumbered in pre-order, from `n`. -/
def T.ren (v : Nat) : T → Nat → T
  | .mk _ ks ts, n => .mk ⟨v, n⟩ ks (renL v ts (n + 1))
def renL (v : Nat) : List T → Nat → List T
  | [], _ => []
  | t :: ts, n => if t.ref.seq = v then t.ren v n :: renL v ts (n + t.cnt v) else t :: renL v ts n
end

mutual
/-- The new nodes of the tree in pre-order. -/
def T.pre (v : Nat) : T → List Node
  | .mk _ ks ts => ⟨ks, ts.map T.ref⟩ :: preL v ts
def preL (v : Nat) : List T → List Node
  | [] => []
  | t :: ts => (if t.ref.seq = v then t.pre v else []) ++ preL v ts
end

mutual
/-- The offsets of the new nodes of the tree in pre-order. -/
def T.offs (v : Nat) : T → List Nat
  | .mk r _ ts => r.offset :: offsL v ts
def offsL (v : Nat) : List T → List Nat
  | [] => []
  | t :: ts => (if t.ref.seq = v then t.offs v else []) ++ offsL v ts
end

theorem T.ren_ref (v : Nat) (t : T) (n : Nat) : (t.ren v n).ref = ⟨v, n⟩ := by
  cases t; simp [T.ren, T.ref]

theorem T.len_pre (v : Nat) : ∀ (t : T) (n : Nat), ((t.ren v n).pre v).length = t.cnt v := by
  intro t
  induction t using T.ind with
  | h r ks ts ih =>
    intro n
    have hl : ∀ (us : List T) (m : Nat), (∀ t ∈ us, ∀ n, ((t.ren v n).pre v).length = t.cnt v) →
        (preL v (renL v us m)).length = cntL v us := by
      intro us
      induction us with
      | nil => intro m _; simp [renL, preL, cntL]
      | cons u us ihu =>
        intro m hu
        by_cases he : u.ref.seq = v
        · simp [renL, preL, cntL, he, T.ren_ref, hu u (by simp), ihu _ (fun t ht => hu t (by simp [ht]))]
        · simp [renL, preL, cntL, he, ihu _ (fun t ht => hu t (by simp [ht]))]
    simp only [T.ren, T.pre, T.cnt, List.length_cons, hl ts (n + 1) ih]
    omega

theorem T.ren_offs (v : Nat) : ∀ (t : T) (n : Nat), (t.ren v n).offs v = List.range' n (t.cnt v) := by
  intro t
  induction t using T.ind with
  | h r ks ts ih =>
    intro n
    have hl : ∀ (us : List T) (m : Nat), (∀ t ∈ us, ∀ n, (t.ren v n).offs v = List.range' n (t.cnt v)) →
        offsL v (renL v us m) = List.range' m (cntL v us) := by
      intro us
      induction us with
      | nil => intro m _; simp [renL, offsL, cntL]
      | cons u us ihu =>
        intro m hu
        by_cases he : u.ref.seq = v
        · simp [renL, offsL, cntL, he, T.ren_ref, hu u (by simp), ihu _ (fun t ht => hu t (by simp [ht]))]
        · simp [renL, offsL, cntL, he, ihu _ (fun t ht => hu t (by simp [ht]))]
    rw [T.ren, T.offs, T.cnt, hl ts (n + 1) ih, Nat.add_comm 1, List.range'_succ]

theorem len_preL (v : Nat) (ts : List T) (n : Nat) : (preL v (renL v ts n)).length = cntL v ts := by
  have := T.len_pre v (.mk ⟨v, 0⟩ [] ts) (n - 1)
  induction ts generalizing n with
  | nil => simp [renL, preL, cntL]
  | cons u us ihu =>
    by_cases he : u.ref.seq = v
    · simp [renL, preL, cntL, he, T.ren_ref, T.len_pre, ihu _ (T.len_pre v _ _)]
    · simp [renL, preL, cntL, he, ihu _ (T.len_pre v _ _)]

theorem renL_len (v : Nat) (ts : List T) (n : Nat) : (renL v ts n).length = ts.length := by
  induction ts generalizing n with
  | nil => simp [renL]
  | cons u us ih =>
    by_cases he : u.ref.seq = v <;> simp [renL, he, ih]

theorem T.flat_ren (v : Nat) : ∀ (t : T) (n : Nat), (t.ren v n).flat = t.flat := by
  intro t
  induction t using T.ind with
  | h r ks ts ih =>
    intro n
    have hl : ∀ (us : List T) (m : Nat) (ks : List Nat), (∀ t ∈ us, ∀ n, (t.ren v n).flat = t.flat) →
        flatL ks (renL v us m) = flatL ks us := by
      intro us
      induction us with
      | nil => intro m ks _; simp [renL]
      | cons u us ihu =>
        intro m ks hu
        cases ks with
        | nil =>
          by_cases he : u.ref.seq = v
          · simp [renL, he, flatL, hu u (by simp), ihu _ _ (fun t ht => hu t (by simp [ht]))]
          · simp [renL, he, flatL, ihu _ _ (fun t ht => hu t (by simp [ht]))]
        | cons k ks =>
          by_cases he : u.ref.seq = v
          · simp [renL, he, flatL, hu u (by simp), ihu _ _ (fun t ht => hu t (by simp [ht]))]
          · simp [renL, he, flatL, ihu _ _ (fun t ht => hu t (by simp [ht]))]
    simp only [T.ren, T.flat]
    exact hl ts (n + 1) ks ih

theorem GoodN.ren (v : Nat) {h : Nat} : ∀ {root : Bool} {t : T} (n : Nat), GoodN root h t →
    GoodN root h (t.ren v n) := by
  induction h with
  | zero =>
    rintro root ⟨r, ks, ts⟩ n ⟨h1, h2⟩
    subst h1
    exact ⟨by simp [renL], h2⟩
  | succ h ih =>
    rintro root ⟨r, ks, ts⟩ n ⟨h1, h2, h3⟩
    refine ⟨by rw [renL_len]; exact h1, h2, ?_⟩
    have hl : ∀ (us : List T) (m : Nat), (∀ t ∈ us, GoodN false h t) →
        ∀ t ∈ renL v us m, GoodN false h t := by
      intro us
      induction us with
      | nil => intro m _; simp [renL]
      | cons u us ihu =>
        intro m hu t ht
        by_cases he : u.ref.seq = v
        · simp only [renL, he, if_true, List.mem_cons] at ht
          rcases ht with e | ht
          · subst e; exact ih m (hu u (by simp))
          · exact ihu _ (fun t ht => hu t (by simp [ht])) t ht
        · simp only [renL, he, if_false, List.mem_cons] at ht
          rcases ht with e | ht
          · subst e; exact hu t (by simp)
          · exact ihu _ (fun t ht => hu t (by simp [ht])) t ht
    exact hl ts (n + 1) h3

theorem vecSet_eq {l : List α} {i : Nat} (h : i < l.length) (x : α) :
    vecSet l i x = some (l.set i x) := by
  simp [vecSet, h]

/-- Renumbering the new nodes below one node. -/
theorem reorder_tree {c : List Bytes} {Pv : List Node} {as : List Nat} (has : as.Nodup)
    (hlen : as.length = Pv.length) {t : T} (hrep : RepN c Pv t) (hnew : t.ref.seq = c.length) :
    ∀ (s : St) (a : Nat) (out : List Nat) (n : Nat) (rest : List (Nat × Nat)),
      as[t.ref.offset]? = some a → t.refs.Nodup →
      (∀ k, ⟨c.length, k⟩ ∈ t.refs → ∀ b, as[k]? = some b → s.heap[b]? = Pv[k]?) →
      out.length = n + 1 →
      ∃ addrs H', (∀ fuel, reorderLoop c.length as (addrs.length + fuel)
          ((indicesWithSeq c.length 0 (t.kids.map T.ref)).map (fun i => (a, i)) ++ rest) out s
          = reorderLoop c.length as fuel rest (out ++ addrs) { s with heap := H' }) ∧
        H'.length = s.heap.length ∧
        (a :: addrs).map (fun b => H'[b]?) = ((t.ren c.length n).pre c.length).map some ∧
        (∀ b ∈ addrs, ∃ k, ⟨c.length, k⟩ ∈ refsL t.kids ∧ as[k]? = some b) ∧
        (∀ b, (∀ k, ⟨c.length, k⟩ ∈ t.refs → as[k]? ≠ some b) → H'[b]? = s.heap[b]?) := by
  induction hrep with
  | old h =>
    exact absurd hnew (Nat.ne_of_lt (h.old_lt _ (T.ref_mem_refs _)))
  | @new k ks ts hk hkids ih =>
    intro s a out n rest ha hnd hpend hout
    simp only [T.ref] at ha
    have hinj : ∀ {i j b : Nat}, as[i]? = some b → as[j]? = some b → i = j := by
      intro i j b hi hj
      obtain ⟨hi1, hi2⟩ := List.getElem?_eq_some_iff.mp hi
      obtain ⟨hj1, hj2⟩ := List.getElem?_eq_some_iff.mp hj
      exact (List.Nodup.getElem_inj_iff has).mp (hi2.trans hj2.symm)
    -- the subtrees, one after the other
    have forest : ∀ (us : List T) (done : List Child) (s : St) (out : List Nat),
        (∀ t ∈ us, t ∈ ts) →
        s.heap[a]? = some ⟨ks, done ++ us.map T.ref⟩ → (refsL us).Nodup →
        (∀ k, ⟨c.length, k⟩ ∈ refsL us → ∀ b, as[k]? = some b → s.heap[b]? = Pv[k]?) →
        (∀ k, ⟨c.length, k⟩ ∈ refsL us → as[k]? ≠ some a) →
        ∃ addrs H', (∀ fuel, reorderLoop c.length as (addrs.length + fuel)
            ((indicesWithSeq c.length done.length (us.map T.ref)).map (fun i => (a, i)) ++ rest) out s
            = reorderLoop c.length as fuel rest (out ++ addrs) { s with heap := H' }) ∧
          H'.length = s.heap.length ∧
          H'[a]? = some ⟨ks, done ++ (renL c.length us out.length).map T.ref⟩ ∧
          addrs.map (fun b => H'[b]?) = (preL c.length (renL c.length us out.length)).map some ∧
          (∀ b ∈ addrs, ∃ k, ⟨c.length, k⟩ ∈ refsL us ∧ as[k]? = some b) ∧
          (∀ b, b ≠ a → (∀ k, ⟨c.length, k⟩ ∈ refsL us → as[k]? ≠ some b) → H'[b]? = s.heap[b]?) := by
      intro us
      induction us generalizing rest with
      | nil =>
        intro done s out _ hh _ _ _
        exact ⟨[], s.heap, by simp [indicesWithSeq], rfl, by simpa [renL] using hh,
          by simp [renL, preL], by simp, by simp⟩
      | cons u us ihu =>
        intro done s out hmem hh hnd hpend hna
        have hnd2 := hnd
        simp only [refsL, List.nodup_append] at hnd2
        obtain ⟨hndu, hndus, hdis⟩ := hnd2
        by_cases hu : u.ref.seq = c.length
        · -- a new child
          have hukid := hmem u (by simp)
          have hrepu := hkids u hukid
          have huk : (⟨c.length, u.ref.offset⟩ : Child) ∈ u.refs := by
            have := T.ref_mem_refs u
            rw [← hu]; exact this
          have hukL : (⟨c.length, u.ref.offset⟩ : Child) ∈ refsL (u :: us) := by
            simp only [refsL, List.mem_append]; exact .inl huk
          have hoff : u.ref.offset < as.length := by
            rcases hrepu.ref_lt _ huk with h | ⟨_, h⟩
            · exact absurd h (Nat.lt_irrefl _)
            · rw [hlen]; exact h
          obtain ⟨b, hb⟩ : ∃ b, as[u.ref.offset]? = some b := ⟨_, List.getElem?_eq_getElem hoff⟩
          have hba : b ≠ a := fun e => hna _ hukL (e ▸ hb)
          -- the parent's reference is renumbered
          generalize hs1 : s.wr a ⟨ks, done ++ ⟨c.length, out.length⟩ :: us.map T.ref⟩ = s1
          have halt : a < s.heap.length := (List.getElem?_eq_some_iff.mp hh).1
          have hlen1 : s1.heap.length = s.heap.length := by rw [← hs1, St.wr_len]
          have hs1a : s1.heap[a]? = some ⟨ks, done ++ ⟨c.length, out.length⟩ :: us.map T.ref⟩ := by
            rw [← hs1, St.wr_self halt]
          have hoth : ∀ x, x ≠ a → s1.heap[x]? = s.heap[x]? := by
            intro x hx; rw [← hs1, St.wr_other (Ne.symm hx)]
          have hpend1 : ∀ k, ⟨c.length, k⟩ ∈ refsL (u :: us) → ∀ x, as[k]? = some x →
              s1.heap[x]? = Pv[k]? := by
            intro k hk x hx
            rw [hoth x (fun e => hna k hk (e ▸ hx))]
            exact hpend k hk x hx
          have hbn : s1.heap[b]? = some ⟨u.keys, u.kids.map T.ref⟩ := by
            rw [hpend1 _ hukL b hb]
            cases hrepu with
            | old h => exact absurd hu (Nat.ne_of_lt (h.old_lt _ (T.ref_mem_refs _)))
            | new h _ => exact h
          obtain ⟨addrs1, H1, hl1, hH1, hp1, hr1, hf1⟩ := ih u hukid hu s1 b (out ++ [b]) out.length
            ((indicesWithSeq c.length (done.length + 1) (us.map T.ref)).map (fun i => (a, i)) ++ rest)
            hb hndu (fun k hk x hx => hpend1 k (by simp only [refsL, List.mem_append]; exact .inl hk) x hx)
            (by simp)
          have hcnt : addrs1.length + 1 = u.cnt c.length := by
            have := congrArg List.length hp1
            simpa [T.len_pre] using this
          have hdisj : ∀ k x, ⟨c.length, k⟩ ∈ refsL us → as[k]? = some x →
              ∀ k', ⟨c.length, k'⟩ ∈ u.refs → as[k']? ≠ some x := by
            intro k x hk hx k' hk' hx'
            have := hinj hx hx'
            subst this
            exact hdis _ hk' _ hk rfl
          obtain ⟨addrs2, H2, hl2, hH2, ha2, hp2, hr2, hf2⟩ := ihu rest (done ++ [⟨c.length, out.length⟩])
            { s1 with heap := H1 } (out ++ [b] ++ addrs1) (fun t ht => hmem t (by simp [ht]))
            (by
              have := hf1 a (fun k hk => hna k (by simp only [refsL, List.mem_append]; exact .inl hk))
              rw [this, hs1a]; simp)
            hndus
            (by
              intro k hk x hx
              have := hf1 x (hdisj k x hk hx)
              rw [this]
              exact hpend1 k (by simp only [refsL, List.mem_append]; exact .inr hk) x hx)
            (fun k hk => hna k (by simp only [refsL, List.mem_append]; exact .inr hk))
          have hlout : (out ++ [b] ++ addrs1).length = out.length + u.cnt c.length := by
            simp only [List.length_append, List.length_cons, List.length_nil]; omega
          rw [hlout] at ha2 hp2
          refine ⟨b :: addrs1 ++ addrs2, H2, ?_, ?_, ?_, ?_, ?_, ?_⟩
          · intro fuel
            simp only [List.map_cons, indicesWithSeq, hu, if_true, List.cons_append, List.length_cons,
              List.length_append]
            rw [show addrs1.length + addrs2.length + 1 + fuel
              = (addrs1.length + (addrs2.length + fuel)) + 1 by omega]
            rw [reorderLoop, bind_ok (readNode_some hh)]
            have hget : (done ++ (u :: us).map T.ref)[done.length]? = some u.ref := by simp
            simp only [hget, orPanic_some, pure_bind_run]
            have hset : vecSet (done ++ (u :: us).map T.ref) done.length ⟨u.ref.seq, out.length⟩
                = some (done ++ ⟨c.length, out.length⟩ :: us.map T.ref) := by
              rw [List.map_cons, vecSet_mid, hu]
            simp only [hset, orPanic_some, pure_bind_run]
            rw [bind_ok (writeNode_wr _ _ _), hs1]
            simp only [hb, orPanic_some, pure_bind_run]
            have htake : takeChildrenWithSeq b c.length s1
                = (.ok ((indicesWithSeq c.length 0 (u.kids.map T.ref)).map (fun i => (b, i))), s1) := by
              unfold takeChildrenWithSeq
              rw [bind_ok (readNode_some hbn)]
              rfl
            rw [bind_ok htake, hl1 (addrs2.length + fuel)]
            have := hl2 fuel
            simp only [List.length_append, List.length_cons, List.length_nil] at this
            rw [this, ← hs1]
            simp [List.append_assoc, St.wr]
          · rw [hH2]; simp only []; rw [hH1, hlen1]
          · rw [ha2]; simp [renL, hu, T.ren_ref]
          · simp only [renL, hu, if_true, preL, T.ren_ref]
            rw [List.cons_append, ← List.cons_append, List.map_append, List.map_append, ← hp1, hp2]
            congr 1
            refine List.map_congr_left fun x hx => ?_
            have hxk : ∃ k, ⟨c.length, k⟩ ∈ u.refs ∧ as[k]? = some x := by
              rcases List.mem_cons.mp hx with e | hx
              · subst e; exact ⟨_, huk, hb⟩
              · obtain ⟨k, hk, hx⟩ := hr1 x hx
                refine ⟨k, ?_, hx⟩
                cases u with
                | mk r ks' ts' => simp only [T.refs, List.mem_cons]; exact .inr hk
            obtain ⟨k, hk, hx⟩ := hxk
            refine hf2 x (fun e => hna k (by simp only [refsL, List.mem_append]; exact .inl hk) (e ▸ hx)) ?_
            intro k' hk' hx'
            exact hdisj k' x hk' hx' k hk hx
          · intro x hx
            rw [List.mem_append, List.mem_cons] at hx
            rcases hx with (e | hx) | hx
            · subst e; exact ⟨_, hukL, hb⟩
            · obtain ⟨k, hk, hx⟩ := hr1 x hx
              refine ⟨k, ?_, hx⟩
              simp only [refsL, List.mem_append]
              cases u with
              | mk r ks' ts' => simp only [T.refs, List.mem_cons]; exact .inl (.inr hk)
            · obtain ⟨k, hk, hx⟩ := hr2 x hx
              exact ⟨k, by simp only [refsL, List.mem_append]; exact .inr hk, hx⟩
          · intro x hxa hx
            rw [hf2 x hxa (fun k hk => hx k (by simp only [refsL, List.mem_append]; exact .inr hk))]
            simp only []
            rw [hf1 x (fun k hk => hx k (by simp only [refsL, List.mem_append]; exact .inl hk)), hoth x hxa]
        · -- an old child
          obtain ⟨addrs2, H2, hl2, hH2, ha2, hp2, hr2, hf2⟩ := ihu rest (done ++ [u.ref]) s out
            (fun t ht => hmem t (by simp [ht])) (by simpa using hh) hndus
            (fun k hk x hx => hpend k (by simp only [refsL, List.mem_append]; exact .inr hk) x hx)
            (fun k hk => hna k (by simp only [refsL, List.mem_append]; exact .inr hk))
          refine ⟨addrs2, H2, ?_, hH2, ?_, ?_, ?_, ?_⟩
          · intro fuel
            have := hl2 fuel
            simp only [List.length_append, List.length_cons, List.length_nil] at this
            simpa only [List.map_cons, indicesWithSeq, hu, if_false] using this
          · rw [ha2]; simp [renL, hu]
          · rw [hp2]; simp [renL, hu, preL]
          · intro x hx
            obtain ⟨k, hk, hx⟩ := hr2 x hx
            exact ⟨k, by simp only [refsL, List.mem_append]; exact .inr hk, hx⟩
          · intro x hxa hx
            exact hf2 x hxa (fun k hk => hx k (by simp only [refsL, List.mem_append]; exact .inr hk))
    simp only [T.refs, List.nodup_cons] at hnd
    obtain ⟨addrs, H', h1, h2, h3, h4, h5, h6⟩ := forest ts [] s out (fun t ht => ht)
      (by
        rw [hpend k (by simp [T.refs]) a ha, hk]; rfl)
      hnd.2
      (fun k' hk' b hb => hpend k' (by simp [T.refs, hk']) b hb)
      (fun k' hk' hk'' => by
        have := hinj hk'' ha
        subst this
        exact hnd.1 hk')
    refine ⟨addrs, H', ?_, h2, ?_, h5, ?_⟩
    · simpa [T.kids] using h1
    · rw [hout] at h3 h4
      simp only [T.ren, T.pre, List.map_cons, h3, h4, List.nil_append]
    · intro b hb
      refine h6 b (fun e => ?_) (fun k' hk' => hb k' (by simp [T.refs, hk']))
      subst e
      exact hb k (by simp [T.refs]) ha

/-! ## The renumbered tree -/

theorem RepN.old_ne {c : List Bytes} {Pv : List Node} {t : T} (h : RepN c Pv t)
    (hne : t.ref.seq ≠ c.length) : Rep (nodeAt c) t := by
  cases h with
  | old h => exact h
  | new h _ => exact absurd rfl hne

theorem filter_refs_old {c : List Bytes} {t : T} (h : Rep (nodeAt c) t) :
    t.refs.filter (fun r => r.seq = c.length) = [] := by
  rw [List.filter_eq_nil_iff]
  intro r hr
  have := h.old_lt r hr
  simp; omega

theorem filter_ren_new {c : List Bytes} {Pv : List Node} {t : T} (h : RepN c Pv t)
    (hn : t.ref.seq = c.length) : ∀ n, (t.ren c.length n).refs.filter (fun r => r.seq = c.length)
      = (List.range' n (t.cnt c.length)).map fun j => ⟨c.length, j⟩ := by
  induction h with
  | old h => exact absurd hn (Nat.ne_of_lt (h.old_lt _ (T.ref_mem_refs _)))
  | @new k ks ts hk hkids ih =>
    intro n
    have hl : ∀ (us : List T) (m : Nat), (∀ t ∈ us, t ∈ ts) →
        (refsL (renL c.length us m)).filter (fun r => r.seq = c.length)
          = (List.range' m (cntL c.length us)).map fun j => ⟨c.length, j⟩ := by
      intro us
      induction us with
      | nil => intro m _; simp [renL, refsL, cntL]
      | cons u us ihu =>
        intro m hm
        have h1 := ihu (m + if u.ref.seq = c.length then u.cnt c.length else 0) (fun t ht => hm t (by simp [ht]))
        by_cases he : u.ref.seq = c.length
        · simp only [he, if_true] at h1
          simp only [renL, he, if_true, refsL, List.filter_append, cntL, ih u (hm u (by simp)) he, h1]
          rw [← List.map_append, List.range'_append_1]
        · simp only [he, if_false, Nat.add_zero] at h1
          simp only [renL, he, if_false, refsL, List.filter_append, cntL, h1, Nat.zero_add]
          rw [filter_refs_old ((hkids u (hm u (by simp))).old_ne he), List.nil_append]
    simp only [T.ren, T.refs, T.cnt, Nat.add_comm 1, List.range'_succ, List.map_cons]
    rw [List.filter_cons_of_pos (by simp), hl ts (n + 1) (fun t ht => ht)]

theorem cnt_filter {c : List Bytes} {Pv : List Node} {t : T} (h : RepN c Pv t)
    (hn : t.ref.seq = c.length) : (t.refs.filter (fun r => r.seq = c.length)).length = t.cnt c.length := by
  induction h with
  | old h => exact absurd hn (Nat.ne_of_lt (h.old_lt _ (T.ref_mem_refs _)))
  | @new k ks ts hk hkids ih =>
    have hl : ∀ (us : List T), (∀ t ∈ us, t ∈ ts) →
        ((refsL us).filter (fun r => r.seq = c.length)).length = cntL c.length us := by
      intro us
      induction us with
      | nil => intro _; simp [refsL, cntL]
      | cons u us ihu =>
        intro hm
        have h1 := ihu (fun t ht => hm t (by simp [ht]))
        by_cases he : u.ref.seq = c.length
        · simp only [he, if_true, refsL, List.filter_append, List.length_append, cntL,
            ih u (hm u (by simp)) he, h1]
        · simp only [he, if_false, refsL, List.filter_append, cntL, h1, Nat.zero_add]
          rw [filter_refs_old ((hkids u (hm u (by simp))).old_ne he), List.nil_append, h1]
    simp only [T.refs, T.cnt]
    rw [List.filter_cons_of_pos (by simp), List.length_cons, hl ts (fun t ht => ht)]
    omega

theorem filter_ren_old {c : List Bytes} {Pv : List Node} {t : T} (h : RepN c Pv t)
    (hn : t.ref.seq = c.length) : ∀ n, (t.ren c.length n).refs.filter (fun r => r.seq ≠ c.length)
      = t.refs.filter (fun r => r.seq ≠ c.length) := by
  induction h with
  | old h => exact absurd hn (Nat.ne_of_lt (h.old_lt _ (T.ref_mem_refs _)))
  | @new k ks ts hk hkids ih =>
    intro n
    have hl : ∀ (us : List T) (m : Nat), (∀ t ∈ us, t ∈ ts) →
        (refsL (renL c.length us m)).filter (fun r => r.seq ≠ c.length)
          = (refsL us).filter (fun r => r.seq ≠ c.length) := by
      intro us
      induction us with
      | nil => intro m _; simp [renL]
      | cons u us ihu =>
        intro m hm
        have h1 := fun m => ihu m (fun t ht => hm t (by simp [ht]))
        by_cases he : u.ref.seq = c.length
        · simp only [renL, he, if_true, refsL, List.filter_append, ih u (hm u (by simp)) he, h1]
        · simp only [renL, he, if_false, refsL, List.filter_append, h1]
    simp only [T.ren, T.refs]
    rw [List.filter_cons_of_neg (by simp), List.filter_cons_of_neg (by simp), hl ts (n + 1) (fun t ht => ht)]

theorem nodup_of_filter {l : List Child} {v : Nat} (h1 : (l.filter (fun r => r.seq = v)).Nodup)
    (h2 : (l.filter (fun r => r.seq ≠ v)).Nodup) : l.Nodup := by
  rw [List.nodup_iff_count_le_one] at *
  intro x
  by_cases hx : x.seq = v
  · have := h1 x
    rwa [List.count_filter (by simpa using hx)] at this
  · have := h2 x
    rwa [List.count_filter (by simpa using hx)] at this

theorem ren_nodup {c : List Bytes} {Pv : List Node} {t : T} (h : RepN c Pv t)
    (hn : t.ref.seq = c.length) (hnd : t.refs.Nodup) (n : Nat) : (t.ren c.length n).refs.Nodup := by
  refine nodup_of_filter (v := c.length) ?_ ?_
  · rw [filter_ren_new h hn n]
    refine List.Nodup.map ?_ (List.nodup_range')
    intro a b hab
    simpa using hab
  · rw [filter_ren_old h hn n]
    exact hnd.filter _

theorem cnt_le {c : List Bytes} {Pv : List Node} {t : T} (h : RepN c Pv t)
    (hn : t.ref.seq = c.length) (hnd : t.refs.Nodup) : t.cnt c.length ≤ Pv.length := by
  rw [← cnt_filter h hn]
  have h1 : ((t.refs.filter (fun r => r.seq = c.length)).map Child.offset).Nodup := by
    refine List.Nodup.map_on ?_ (hnd.filter _)
    rintro ⟨s1, o1⟩ h1 ⟨s2, o2⟩ h2 heq
    simp only [List.mem_filter, decide_eq_true_eq] at h1 h2
    simp only [Child.mk.injEq]
    exact ⟨h1.2.trans h2.2.symm, heq⟩
  have h2 : ∀ x ∈ (t.refs.filter (fun r => r.seq = c.length)).map Child.offset, x ∈ List.range Pv.length := by
    intro x hx
    obtain ⟨r, hr, rfl⟩ := List.mem_map.mp hx
    simp only [List.mem_filter, decide_eq_true_eq] at hr
    rcases h.ref_lt r hr.1 with h3 | ⟨_, h3⟩
    · omega
    · exact List.mem_range.mpr h3
  have := (List.subperm_of_subset h1 h2).length_le
  simpa using this

theorem ren_rep {c : List Bytes} {Pv : List Node} {N' : Child → Option Node} {t : T}
    (h : RepN c Pv t) (hn : t.ref.seq = c.length)
    (hold : ∀ r n, nodeAt c r = some n → N' r = some n) : ∀ n,
    (∀ j, j < t.cnt c.length → N' ⟨c.length, n + j⟩ = ((t.ren c.length n).pre c.length)[j]?) →
    Rep N' (t.ren c.length n) := by
  induction h with
  | old h => exact absurd hn (Nat.ne_of_lt (h.old_lt _ (T.ref_mem_refs _)))
  | @new k ks ts hk hkids ih =>
    intro n hnew
    have hl : ∀ (us : List T) (m : Nat), (∀ t ∈ us, t ∈ ts) →
        (∀ j, j < cntL c.length us → N' ⟨c.length, m + j⟩ = (preL c.length (renL c.length us m))[j]?) →
        ∀ t ∈ renL c.length us m, Rep N' t := by
      intro us
      induction us with
      | nil => intro m _ _ t ht; simp [renL] at ht
      | cons u us ihu =>
        intro m hm hj t ht
        by_cases he : u.ref.seq = c.length
        · simp only [renL, he, if_true, List.mem_cons] at ht
          simp only [renL, he, if_true, cntL, preL, T.ren_ref] at hj
          have hlp : ((u.ren c.length m).pre c.length).length = u.cnt c.length := T.len_pre _ _ _
          rcases ht with e | ht
          · subst e
            refine ih u (hm u (by simp)) he m fun j hjl => ?_
            rw [hj j (by omega), List.getElem?_append_left (by omega)]
          · refine ihu (m + u.cnt c.length) (fun t ht => hm t (by simp [ht])) (fun j hjl => ?_) t ht
            have := hj (u.cnt c.length + j) (by omega)
            rw [List.getElem?_append_right (by omega), hlp, Nat.add_sub_cancel_left] at this
            rw [Nat.add_assoc]; exact this
        · simp only [renL, he, if_false, List.mem_cons] at ht
          simp only [renL, he, if_false, cntL, preL, Nat.zero_add, List.nil_append] at hj
          rcases ht with e | ht
          · subst e
            exact ((hkids t (hm t (by simp))).old_ne he).mono fun r _ n hn => hold r n hn
          · exact ihu m (fun t ht => hm t (by simp [ht])) hj t ht
    simp only [T.ren]
    refine .mk ?_ ?_
    · have := hnew 0 (by simp [T.cnt]; omega)
      simpa [T.ren, T.pre] using this
    · refine hl ts (n + 1) (fun t ht => ht) fun j hj => ?_
      have := hnew (j + 1) (by simp [T.cnt]; omega)
      simp only [T.ren, T.pre, List.getElem?_cons_succ] at this
      rw [← this]
      congr 2
      omega

/-- In a new block, nodes only refer to older blocks or to later nodes of the same block. -/
theorem ren_order {c : List Bytes} {Pv : List Node} {t : T} (h : RepN c Pv t)
    (hn : t.ref.seq = c.length) : ∀ n i nd, ((t.ren c.length n).pre c.length)[i]? = some nd →
    ∀ r ∈ nd.children, r.seq < c.length ∨
      (r.seq = c.length ∧ n + i < r.offset ∧ r.offset < n + t.cnt c.length) := by
  induction h with
  | old h => exact absurd hn (Nat.ne_of_lt (h.old_lt _ (T.ref_mem_refs _)))
  | @new k ks ts hk hkids ih =>
    intro n i nd hi r hr
    have hl : ∀ (us : List T) (m : Nat), (∀ t ∈ us, t ∈ ts) →
        (∀ t ∈ renL c.length us m, t.ref.seq < c.length ∨
          (t.ref.seq = c.length ∧ m ≤ t.ref.offset ∧ t.ref.offset < m + cntL c.length us)) ∧
        (∀ i nd, (preL c.length (renL c.length us m))[i]? = some nd → ∀ r ∈ nd.children,
          r.seq < c.length ∨
          (r.seq = c.length ∧ m + i < r.offset ∧ r.offset < m + cntL c.length us)) := by
      intro us
      induction us with
      | nil => intro m _; simp [renL, preL]
      | cons u us ihu =>
        intro m hm
        have hu := hkids u (hm u (by simp))
        by_cases he : u.ref.seq = c.length
        · obtain ⟨h1, h2⟩ := ihu (m + u.cnt c.length) (fun t ht => hm t (by simp [ht]))
          have hcpos : 0 < u.cnt c.length := by cases u; simp [T.cnt]; omega
          have hlp : ((u.ren c.length m).pre c.length).length = u.cnt c.length := T.len_pre _ _ _
          simp only [renL, he, if_true, cntL, preL, T.ren_ref, List.mem_cons]
          constructor
          · rintro t (e | ht)
            · subst e; simp only [T.ren_ref]; right; exact ⟨trivial, Nat.le_refl _, by omega⟩
            · rcases h1 t ht with h | ⟨ha, hb, hc⟩
              · exact .inl h
              · exact .inr ⟨ha, by omega, by omega⟩
          · intro i nd hi r hr
            by_cases hil : i < u.cnt c.length
            · rw [List.getElem?_append_left (by omega)] at hi
              rcases ih u (hm u (by simp)) he m i nd hi r hr with h | ⟨ha, hb, hc⟩
              · exact .inl h
              · exact .inr ⟨ha, hb, by omega⟩
            · rw [List.getElem?_append_right (by omega), hlp] at hi
              rcases h2 _ nd hi r hr with h | ⟨ha, hb, hc⟩
              · exact .inl h
              · exact .inr ⟨ha, by omega, by omega⟩
        · obtain ⟨h1, h2⟩ := ihu m (fun t ht => hm t (by simp [ht]))
          simp only [renL, he, if_false, cntL, preL, List.mem_cons, Nat.zero_add, List.nil_append]
          refine ⟨?_, h2⟩
          rintro t (e | ht)
          · subst e
            rcases hu.ref_lt _ (T.ref_mem_refs _) with h | h
            · exact .inl h
            · exact absurd h.1 he
          · exact h1 t ht
    obtain ⟨h1, h2⟩ := hl ts (n + 1) (fun t ht => ht)
    simp only [T.ren, T.pre] at hi
    simp only [T.cnt]
    cases i with
    | zero =>
      simp only [List.getElem?_cons_zero, Option.some.injEq] at hi
      subst hi
      obtain ⟨t, ht, rfl⟩ := List.mem_map.mp hr
      rcases h1 t ht with h | ⟨ha, hb, hc⟩
      · exact .inl h
      · exact .inr ⟨ha, by omega, by omega⟩
    | succ i =>
      rw [List.getElem?_cons_succ] at hi
      rcases h2 i nd hi r hr with h | ⟨ha, hb, hc⟩
      · exact .inl h
      · exact .inr ⟨ha, by omega, by omega⟩

/-! ## The commit -/

theorem readNodes_run {s : St} {as : List Nat} {ns : List Node}
    (h : as.map (fun a => s.heap[a]?) = ns.map some) : readNodes as s = (.ok ns, s) := by
  induction as generalizing ns with
  | nil =>
    cases ns with
    | nil => rfl
    | cons n ns => simp at h
  | cons a as ih =>
    cases ns with
    | nil => simp at h
    | cons n ns =>
      simp only [List.map_cons, List.cons.injEq] at h
      rw [readNodes, bind_ok (readNode_some h.1), bind_ok (ih h.2)]
      rfl

/-- The reordering step, whether or not the append then succeeds. -/
theorem reorderNodes_run {c : List Bytes} {io : Io} {s : St} {ch : Changes} {R : Child → Prop}
    {Pv : List Node} {t : T} (d : Done c io s ch R Pv t) :
    ∃ out H', reorderNodes ch.seq ch.nodes s = (.ok out, { s with heap := H' }) ∧
      H'.length = s.heap.length ∧
      out.map (fun b => H'[b]?) = ((t.ren c.length 0).pre c.length).map some ∧
      (∀ b, b ∉ ch.nodes → H'[b]? = s.heap[b]?) := by
  have hlen := d.pend.len
  have hnew : t.ref.seq = c.length := by rw [d.ref]
  have hpos : 0 < Pv.length := List.length_pos_iff.mpr d.ne
  have hlt : Pv.length - 1 < ch.nodes.length := by omega
  obtain ⟨a, ha⟩ : ∃ a, ch.nodes[Pv.length - 1]? = some a := ⟨_, List.getElem?_eq_getElem hlt⟩
  have hlast : ch.nodes.getLast? = some a := by
    rw [List.getLast?_eq_getElem?, hlen]; exact ha
  have hpend : ∀ (k b : Nat), ch.nodes[k]? = some b → s.heap[b]? = Pv[k]? := by
    intro k b hb
    have h1 := congrArg (fun l => l[k]?) d.pend
    simp only [List.getElem?_map, hb, Option.map_some] at h1
    cases hk : Pv[k]? with
    | none => rw [hk] at h1; simp at h1
    | some n => rw [hk] at h1; simpa using h1
  obtain ⟨addrs, H', h1, h2, h3, h4, h5⟩ := reorder_tree d.op.nodup hlen d.rep hnew s a [a] 0 []
    (by rw [d.ref]; exact ha) d.nodup (fun k _ b hb => hpend k b hb) rfl
  have han : s.heap[a]? = some t.node := by
    rw [hpend _ _ ha]
    cases d.rep with
    | old h => exact absurd hnew (Nat.ne_of_lt (h.old_lt _ (T.ref_mem_refs _)))
    | @new k ks ts h _ =>
      have := d.ref
      simp only [T.ref, Child.mk.injEq, true_and] at this
      subst this
      exact h
  have hcnt : addrs.length + 1 = t.cnt c.length := by
    have := congrArg List.length h3
    simpa [T.len_pre] using this
  have hle : addrs.length ≤ ch.nodes.length := by
    have := cnt_le d.rep hnew d.nodup
    omega
  refine ⟨[a] ++ addrs, H', ?_, h2, h3, ?_⟩
  · unfold reorderNodes
    rw [hlast]
    simp only [orPanic_some, pure_bind_run]
    have htake : takeChildrenWithSeq a ch.seq s
        = (.ok ((indicesWithSeq c.length 0 (t.kids.map T.ref)).map (fun i => (a, i))), s) := by
      unfold takeChildrenWithSeq
      rw [bind_ok (readNode_some han), d.seq]
      rfl
    rw [bind_ok htake, d.seq]
    have := h1 (ch.nodes.length - addrs.length)
    rw [List.append_nil, show addrs.length + (ch.nodes.length - addrs.length) = ch.nodes.length by omega] at this
    rw [this]
    cases ch.nodes.length - addrs.length <;> simp [reorderLoop]
  · intro b hb
    refine h5 b fun k _ hk => hb (List.mem_of_getElem? hk)

/-- A handle's relation to the core. -/
structure TreeAt (c : List Bytes) (H : Nat) (t : T) : Prop where
  rep : Rep (nodeAt c) t
  good : GoodN true H t
  ref : t.ref = ⟨c.length - 1, 0⟩
  nodup : t.refs.Nodup
  srt : Srt c t.flat
  dfd : ∀ q ∈ t.flat, ∃ b, blockAt c q = some b
  two : 2 ≤ c.length
  pos : ∀ q ∈ t.flat, 0 < q

theorem commit_run {c : List Bytes} {io : Io} {s : St} {ch : Changes} {R : Child → Prop}
    {Pv : List Node} {t : T} {H : Nat} (d : Done c io s ch R Pv t) (hio : io.appendOk = true)
    (hg : GoodN true H t) :
    ∃ ns s' t', addChanges ch s = (.ok (c.length + 1), s') ∧
      s'.core = c ++ [encodeBlock ch.key ch.value ns] ∧ s'.io = io ∧ SWF s' ∧
      Coh s' (· ∈ t'.refs) ∧ Rep (nodeAt s'.core) t' ∧ GoodN true H t' ∧
      t'.ref = ⟨c.length, 0⟩ ∧ t'.refs.Nodup ∧ t'.flat = t.flat ∧
      (∀ r ∈ t'.refs, r.seq ≠ c.length → R r) ∧ ns.length ≤ Pv.length ∧ 0 < ns.length ∧
      (∀ (i : Nat) (nd : Node), ns[i]? = some nd → ∀ r ∈ nd.children, r.seq < c.length ∨
        (r.seq = c.length ∧ i < r.offset ∧ r.offset < ns.length)) ∧
      (ns = t'.pre c.length) ∧ t'.offs c.length = List.range ns.length := by
  have hnew : t.ref.seq = c.length := by rw [d.ref]
  obtain ⟨out, H', h1, h2, h3, h4⟩ := reorderNodes_run d
  let ns := (t.ren c.length 0).pre c.length
  let s' : St := { s with heap := H', core := s.core ++ [encodeBlock ch.key ch.value ns] }
  have hcore := d.op.core
  have hnone : s.cache c.length = none := by
    cases he : s.cache c.length with
    | none => rfl
    | some e =>
      obtain ⟨b, hb, _⟩ := d.op.wf.ent _ _ he
      have := blockAt_lt hb
      rw [hcore] at this; omega
  have hlp : ns.length = t.cnt c.length := T.len_pre _ _ _
  have hblk : blockAt (c ++ [encodeBlock ch.key ch.value ns]) c.length = some ⟨ns, ch.key, ch.value⟩ := by
    rw [blockAt_last, blockOf_encodeBlock]
  refine ⟨ns, s', t.ren c.length 0, ?_, by simp [s', hcore], d.op.io, ?_, ?_, ?_, hg.ren _ _,
    T.ren_ref _ _ _, ren_nodup d.rep hnew d.nodup 0, T.flat_ren _ _ _, ?_, ?_, ?_, ?_, rfl,
    by rw [T.ren_offs, hlp, List.range_eq_range']⟩
  · unfold addChanges
    rw [bind_ok h1, bind_ok (readNodes_run h3)]
    simp [coreAppend, d.op.io, hio, hcore, s', ns]
  · refine ⟨d.op.wf.rd, ?_, ?_, d.op.wf.inj⟩
    · intro q e he
      obtain ⟨b, hb, h⟩ := d.op.wf.ent q e he
      exact ⟨b, blockAt_append_some hb _, h⟩
    · intro r a ha
      show a < H'.length
      rw [h2]; exact d.op.wf.lt r a ha
  · intro r hr a ha
    have ha' : addrOf s r = some a := ha
    by_cases hs : r.seq = c.length
    · unfold addrOf at ha'
      rw [hs, hnone] at ha'
      cases ha'
    · have hR : R r := by
        have : r ∈ (t.ren c.length 0).refs.filter (fun r => r.seq ≠ c.length) := by
          rw [List.mem_filter]; exact ⟨hr, by simpa using hs⟩
        rw [filter_ren_old d.rep hnew, List.mem_filter] at this
        exact d.live r this.1 hs
      have h5 := d.op.coh r hR a ha'
      have h6 : a ∉ ch.nodes := fun hm => d.op.free a hm r hR ha'
      show H'[a]? = nodeAt (s.core ++ _) r
      rw [h4 a h6, h5, nodeAt_append]
      have : r ∈ (t.ren c.length 0).refs.filter (fun r => r.seq ≠ c.length) := by
        rw [List.mem_filter]; exact ⟨hr, by simpa using hs⟩
      rw [filter_ren_old d.rep hnew, List.mem_filter] at this
      rcases d.rep.ref_lt r this.1 with h | h
      · rw [hcore]; exact h
      · exact absurd h.1 hs
  · show Rep (nodeAt (s.core ++ _)) _
    rw [hcore]
    refine ren_rep d.rep hnew (fun r n hn => ?_) 0 fun j hj => ?_
    · rw [nodeAt_append (nodeAt_lt hn), hn]
    · simp only [nodeAt, hblk, Option.bind_some, Nat.zero_add, ns]
  · intro r hr hs
    have : r ∈ (t.ren c.length 0).refs.filter (fun r => r.seq ≠ c.length) := by
      rw [List.mem_filter]; exact ⟨hr, by simpa using hs⟩
    rw [filter_ren_old d.rep hnew, List.mem_filter] at this
    exact d.live r this.1 hs
  · rw [hlp]; exact cnt_le d.rep hnew d.nodup
  · rw [hlp]; cases t; simp [T.cnt]; omega
  · intro i nd hi r hr
    have := ren_order d.rep hnew 0 i nd hi r hr
    rw [hlp]
    simpa using this

/-- A commit whose append fails changes nothing in the core. -/
theorem commit_fail {c : List Bytes} {io : Io} {s : St} {ch : Changes} {R : Child → Prop}
    {Pv : List Node} {t : T} (d : Done c io s ch R Pv t) (hio : io.appendOk = false) :
    ∃ s', addChanges ch s = (.error .core, s') ∧ s'.core = c := by
  obtain ⟨out, H', h1, h2, h3, h4⟩ := reorderNodes_run d
  refine ⟨{ s with heap := H' }, ?_, d.op.core⟩
  unfold addChanges
  rw [bind_ok h1, bind_ok (readNodes_run h3)]
  simp [coreAppend, d.op.io, hio]

end Hyperbee
