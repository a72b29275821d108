import Verif.Proof.Blame
import Verif.Proof.Reorder
import Verif.Proof.RelTop
import Verif.Proof.PutRun
/-!
# Insertion into a tree that is not in order

What keeps `put` from panicking does not need a B-tree: that the search ended, that no node on the
path is above itself, and that no node mentions the block that is about to be written.
-/

namespace Hyperbee

/-! ## Putting the nodes of a block in order -/

theorem mem_indices {N : Nat} : ∀ {cs : List Child} {i j : Nat}, j ∈ indicesWithSeq N i cs →
    ∃ t o, j = i + t ∧ cs[t]? = some ⟨N, o⟩
  | [], _, _, h => by cases h
  | c :: cs, i, j, h => by
    unfold indicesWithSeq at h
    split at h
    · rename_i hc
      rcases List.mem_cons.mp h with rfl | h
      · exact ⟨0, c.offset, rfl, by rw [← hc]; rfl⟩
      · obtain ⟨t, o, h1, h2⟩ := mem_indices h
        exact ⟨t + 1, o, by omega, by simpa using h2⟩
    · obtain ⟨t, o, h1, h2⟩ := mem_indices h
      exact ⟨t + 1, o, by omega, by simpa using h2⟩

theorem nodup_indices {N : Nat} : ∀ (cs : List Child) (i : Nat), (indicesWithSeq N i cs).Nodup
  | [], _ => List.nodup_nil
  | c :: cs, i => by
    unfold indicesWithSeq
    split
    · refine List.nodup_cons.mpr ⟨fun h => ?_, nodup_indices cs (i + 1)⟩
      obtain ⟨t, o, h1, _⟩ := mem_indices h
      omega
    · exact nodup_indices cs (i + 1)

/-- The children the nodes had when the work began: those in the new block come earlier in the list,
and none is mentioned twice. -/
structure Plan (N : Nat) (ns : List Nat) (K : Nat → List Child) : Prop where
  nodup : ns.Nodup
  low : ∀ (k i o : Nat), k < ns.length → (K k)[i]? = some ⟨N, o⟩ → o < k
  uniq : ∀ (k i k' i' o : Nat), k < ns.length → k' < ns.length → (K k)[i]? = some ⟨N, o⟩ → (K k')[i']? = some ⟨N, o⟩ → k = k' ∧ i = i'

/-- Where the work stands: `V` are the nodes that have been put out, `st` the children to come. -/
structure Going (N : Nat) (ns : List Nat) (K : Nat → List Child) (s : St) (st : List (Nat × Nat)) (V : List Nat) : Prop where
  vnodup : V.Nodup
  vlt : ∀ k ∈ V, k < ns.length
  fresh : ∀ k a, ns[k]? = some a → k ∉ V → ∃ ks, s.heap[a]? = some ⟨ks, K k⟩
  there : ∀ a ∈ ns, ∃ n, s.heap[a]? = some n
  snodup : st.Nodup
  todo : ∀ (a i : Nat), (a, i) ∈ st → ∃ k ∈ V, ns[k]? = some a ∧ ∃ n o, s.heap[a]? = some n ∧ n.children[i]? = some ⟨N, o⟩ ∧
    (K k)[i]? = some ⟨N, o⟩
  came : ∀ v ∈ V, v + 1 = ns.length ∨ ∃ k ∈ V, ∃ i : Nat, (K k)[i]? = some ⟨N, v⟩ ∧ ∀ a, ns[k]? = some a → (a, i) ∉ st

theorem reorderLoop_safe {N : Nat} {ns : List Nat} {K : Nat → List Child} (hp : Plan N ns K) :
    ∀ (fuel : Nat) (st : List (Nat × Nat)) (V out : List Nat) (s : St), Going N ns K s st V → ns.length ≤ fuel + V.length →
      (∀ b ∈ out, b ∈ ns) →
      ∃ out' H', reorderLoop N ns fuel st out s = (.ok out', { s with heap := H' }) ∧ (∀ b ∈ out', b ∈ ns) ∧
        ∀ a ∈ ns, ∃ n, H'[a]? = some n := by
  have hinj : ∀ {i j b : Nat}, ns[i]? = some b → ns[j]? = some b → i = j := by
    intro i j b hi hj
    obtain ⟨hi1, hi2⟩ := List.getElem?_eq_some_iff.mp hi
    obtain ⟨hj1, hj2⟩ := List.getElem?_eq_some_iff.mp hj
    exact (List.Nodup.getElem_inj_iff hp.nodup).mp (hi2.trans hj2.symm)
  intro fuel
  induction fuel with
  | zero =>
    intro st V out s h hf ho
    cases st with
    | nil => exact ⟨out, s.heap, rfl, ho, h.there⟩
    | cons x st =>
      obtain ⟨a, i⟩ := x
      obtain ⟨k, hk, hka, n, o, hn, hi, hK⟩ := h.todo a i List.mem_cons_self
      exfalso
      have hklt := h.vlt k hk
      have hov : o ∉ V := by
        intro hov
        have hlow := hp.low k i o hklt hK
        rcases h.came o hov with e | ⟨k', hk', i', hK', hst⟩
        · omega
        · obtain ⟨rfl, rfl⟩ := hp.uniq k i k' i' o hklt (h.vlt k' hk') hK hK'
          exact hst a hka List.mem_cons_self
      have hol : o < ns.length := by have := hp.low k i o hklt hK; omega
      have : (o :: V).length ≤ (List.range ns.length).length :=
        List.Subperm.length_le (List.subperm_of_subset (List.nodup_cons.mpr ⟨hov, h.vnodup⟩) (by
          intro x hx
          rcases List.mem_cons.mp hx with rfl | hx
          · exact List.mem_range.mpr hol
          · exact List.mem_range.mpr (h.vlt x hx)))
      simp only [List.length_cons, List.length_range] at this
      omega
  | succ fuel ih =>
    intro st V out s h hf ho
    cases st with
    | nil => exact ⟨out, s.heap, by unfold reorderLoop; rfl, ho, h.there⟩
    | cons x st =>
      obtain ⟨a, i⟩ := x
      obtain ⟨k, hk, hka, n, o, hn, hi, hK⟩ := h.todo a i List.mem_cons_self
      have hklt := h.vlt k hk
      have hlow := hp.low k i o hklt hK
      have hov : o ∉ V := by
        intro hov
        rcases h.came o hov with e | ⟨k', hk', i', hK', hst⟩
        · omega
        · obtain ⟨rfl, rfl⟩ := hp.uniq k i k' i' o hklt (h.vlt k' hk') hK hK'
          exact hst a hka List.mem_cons_self
      obtain ⟨b, hb⟩ : ∃ b, ns[o]? = some b := ⟨_, List.getElem?_eq_getElem (show o < ns.length by omega)⟩
      have hba : a ≠ b := fun e => by
        subst e
        have := hinj hka hb
        omega
      have hil : i < n.children.length := (List.getElem?_eq_some_iff.mp hi).1
      have hal : a < s.heap.length := (List.getElem?_eq_some_iff.mp hn).1
      obtain ⟨ks, hks⟩ := h.fresh o b hb hov
      obtain ⟨s1, hs1⟩ : ∃ s1 : St, s1 = { s with heap := s.heap.set a { n with children := n.children.set i ⟨N, out.length⟩ } } :=
        ⟨_, rfl⟩
      have hheap : s1.heap = s.heap.set a { n with children := n.children.set i ⟨N, out.length⟩ } := by rw [hs1]
      have hb1 : s1.heap[b]? = some ⟨ks, K o⟩ := by rw [hheap, List.getElem?_set_ne hba]; exact hks
      have ha1 : s1.heap[a]? = some { n with children := n.children.set i ⟨N, out.length⟩ } := by
        rw [hheap, List.getElem?_set_self hal]
      have hrun : reorderLoop N ns (fuel + 1) ((a, i) :: st) out s =
          reorderLoop N ns fuel ((indicesWithSeq N 0 (K o)).map (fun j => (b, j)) ++ st) (out ++ [b]) s1 := by
        conv_lhs => unfold reorderLoop
        rw [bind_ok (readNode_some hn), hi]
        simp only [orPanic_some, pure_bind_run, vecSet_eq hil]
        rw [bind_ok (writeNode_run _ _ _), hb]
        simp only [orPanic_some, pure_bind_run]
        have : takeChildrenWithSeq b N s1 = (.ok ((indicesWithSeq N 0 (K o)).map fun j => (b, j)), s1) := by
          unfold takeChildrenWithSeq
          rw [bind_ok (readNode_some hb1)]
          rfl
        rw [hs1] at this
        rw [bind_ok this, hs1]
      rw [hrun]
      have hsn := List.nodup_cons.mp h.snodup
      have hmore : ∀ a' j, (a', j) ∈ (indicesWithSeq N 0 (K o)).map (fun j => (b, j)) →
          a' = b ∧ ∃ o', (K o)[j]? = some ⟨N, o'⟩ := by
        intro a' j hm
        obtain ⟨j', hj', e⟩ := List.mem_map.mp hm
        cases e
        obtain ⟨t, o', h1, h2⟩ := mem_indices hj'
        exact ⟨rfl, o', by rw [h1, Nat.zero_add]; exact h2⟩
      have hg : Going N ns K s1 ((indicesWithSeq N 0 (K o)).map (fun j => (b, j)) ++ st) (o :: V) := by
        refine ⟨List.nodup_cons.mpr ⟨hov, h.vnodup⟩, ?_, ?_, ?_, ?_, ?_, ?_⟩
        · intro x hx
          rcases List.mem_cons.mp hx with rfl | hx
          · omega
          · exact h.vlt x hx
        · intro k' a' hk' hv'
          have hne : a ≠ a' := fun e => by
            subst e
            have := hinj hka hk'
            subst this
            exact hv' (List.mem_cons_of_mem _ hk)
          rw [hheap, List.getElem?_set_ne hne]
          exact h.fresh k' a' hk' fun hv => hv' (List.mem_cons_of_mem _ hv)
        · intro a' ha'
          by_cases e : a = a'
          · subst e; exact ⟨_, ha1⟩
          · rw [hheap, List.getElem?_set_ne e]; exact h.there a' ha'
        · refine List.nodup_append.mpr ⟨?_, hsn.2, ?_⟩
          · exact List.Nodup.map (fun _ _ e => by cases e; rfl) (nodup_indices (K o) 0)
          · rintro ⟨a', j⟩ hm ⟨a'', j'⟩ hm' e
            cases e
            obtain ⟨rfl, _⟩ := hmore a' j hm
            obtain ⟨k', hk', hka', _⟩ := h.todo a' j (List.mem_cons_of_mem _ hm')
            exact hov (hinj hka' hb ▸ hk')
        · intro a' j hm
          rcases List.mem_append.mp hm with hm | hm
          · obtain ⟨rfl, o', ho'⟩ := hmore a' j hm
            exact ⟨o, List.mem_cons_self, hb, _, o', hb1, ho', ho'⟩
          · obtain ⟨k', hk', hka', n', o', hn', hi', hK'⟩ := h.todo a' j (List.mem_cons_of_mem _ hm)
            refine ⟨k', List.mem_cons_of_mem _ hk', hka', ?_⟩
            by_cases e : a = a'
            · subst e
              rw [hn] at hn'
              cases hn'
              have hij : i ≠ j := fun e => by subst e; exact hsn.1 hm
              exact ⟨_, o', ha1, by rw [List.getElem?_set_ne hij]; exact hi', hK'⟩
            · exact ⟨n', o', by rw [hheap, List.getElem?_set_ne e]; exact hn', hi', hK'⟩
        · intro v hv
          rcases List.mem_cons.mp hv with rfl | hv
          · refine .inr ⟨k, List.mem_cons_of_mem _ hk, i, hK, fun a' ha' hm => ?_⟩
            rw [hka] at ha'
            cases ha'
            rcases List.mem_append.mp hm with hm | hm
            · exact hba (hmore a i hm).1
            · exact hsn.1 hm
          · rcases h.came v hv with e | ⟨k', hk', i', hK', hst⟩
            · exact .inl e
            · refine .inr ⟨k', List.mem_cons_of_mem _ hk', i', hK', fun a' ha' hm => ?_⟩
              rcases List.mem_append.mp hm with hm | hm
              · obtain ⟨rfl, _⟩ := hmore a' i' hm
                exact hov (hinj ha' hb ▸ hk')
              · exact hst a' ha' (List.mem_cons_of_mem _ hm)
      obtain ⟨out', H', h1, h2, h3⟩ := ih _ (o :: V) (out ++ [b]) s1 hg (by simp; omega) (by
        intro x hx
        rcases List.mem_append.mp hx with hx | hx
        · exact ho x hx
        · rw [List.mem_singleton.mp hx]; exact List.mem_of_getElem? hb)
      exact ⟨out', H', by rw [h1, hs1], h2, h3⟩

/-! ## Collecting the nodes of a block -/

theorem filter_inj {p : Child → Bool} : ∀ {cs : List Child} {i j : Nat} {c : Child}, (cs.filter p).Nodup → cs[i]? = some c →
    cs[j]? = some c → p c = true → i = j
  | [], i, _, _, _, h, _, _ => by simp at h
  | d :: cs, i, j, c, hn, hi, hj, hp => by
    have hmem : ∀ {k : Nat}, cs[k]? = some c → c ∈ cs.filter p := fun h => List.mem_filter.mpr ⟨List.mem_of_getElem? h, hp⟩
    cases i with
    | zero =>
      cases j with
      | zero => rfl
      | succ j =>
        simp only [List.getElem?_cons_zero, Option.some.injEq] at hi
        subst hi
        rw [List.filter_cons_of_pos hp] at hn
        exact ((List.nodup_cons.mp hn).1 (hmem (by simpa using hj))).elim
    | succ i =>
      cases j with
      | zero =>
        simp only [List.getElem?_cons_zero, Option.some.injEq] at hj
        subst hj
        rw [List.filter_cons_of_pos hp] at hn
        exact ((List.nodup_cons.mp hn).1 (hmem (by simpa using hi))).elim
      | succ j =>
        have hn' : (cs.filter p).Nodup := hn.sublist ((List.sublist_cons_self d cs).filter p)
        rw [filter_inj (i := i) (j := j) hn' (by simpa using hi) (by simpa using hj) hp]

/-- The children among `cs` that are to be in the block `N`. -/
def inBlock (N : Nat) (cs : List Child) : List Child := cs.filter fun c => c.seq = N

theorem mem_inBlock {N : Nat} {cs : List Child} {c : Child} : c ∈ inBlock N cs ↔ c ∈ cs ∧ c.seq = N := by
  simp [inBlock]

theorem inBlock_append (N : Nat) (cs ds : List Child) : inBlock N (cs ++ ds) = inBlock N cs ++ inBlock N ds := List.filter_append ..

theorem inBlock_none {N : Nat} {cs : List Child} (h : ∀ c ∈ cs, c.seq ≠ N) : inBlock N cs = [] := by
  refine List.filter_eq_nil_iff.mpr fun c hc => ?_
  simpa using h c hc

/-- The nodes collected so far.  Those whose places are in `op` have no parent yet. -/
def Drafted (s : St) (N : Nat) (ns op : List Nat) : Prop :=
  ∃ K, Plan N ns K ∧ (∀ (k a : Nat), ns[k]? = some a → ∃ ks, s.heap[a]? = some ⟨ks, K k⟩) ∧
    ∀ o ∈ op, o < ns.length ∧ ∀ (k i : Nat), k < ns.length → (K k)[i]? ≠ some ⟨N, o⟩

theorem Drafted.nil (s : St) (N : Nat) : Drafted s N [] [] :=
  ⟨fun _ => [], ⟨List.nodup_nil, fun k i o h => by simp at h, fun k i k' i' o h => by simp at h⟩, fun k a h => by simp at h, fun o h => by cases h⟩

theorem Drafted.frame {s s' : St} {N : Nat} {ns op : List Nat} (h : Drafted s N ns op)
    (hf : ∀ a ∈ ns, s'.heap[a]? = s.heap[a]?) : Drafted s' N ns op := by
  obtain ⟨K, h1, h2, h3⟩ := h
  refine ⟨K, h1, fun k a hk => ?_, h3⟩
  rw [hf a (List.mem_of_getElem? hk)]
  exact h2 k a hk

theorem Drafted.lt {s : St} {N : Nat} {ns op : List Nat} (h : Drafted s N ns op) {a : Nat} (ha : a ∈ ns) : a < s.heap.length := by
  obtain ⟨K, h1, h2, h3⟩ := h
  obtain ⟨k, hk⟩ := List.getElem?_of_mem ha
  obtain ⟨ks, hks⟩ := h2 k a hk
  exact (List.getElem?_eq_some_iff.mp hks).1

theorem Drafted.add {s : St} {N : Nat} {ns op : List Nat} (h : Drafted s N ns op) {a : Nat} {n : Node} (ha : a ∉ ns)
    (hn : s.heap[a]? = some n) (hin : ∀ c ∈ n.children, c.seq = N → c.offset ∈ op) (hnd : (inBlock N n.children).Nodup) {op' : List Nat}
    (hop : ∀ o ∈ op', o = ns.length ∨ (o ∈ op ∧ (⟨N, o⟩ : Child) ∉ n.children)) : Drafted s N (ns ++ [a]) op' := by
  obtain ⟨K, h1, h2, h3⟩ := h
  have hold : ∀ {k : Nat}, k < (ns ++ [a]).length → k ≠ ns.length → k < ns.length := by
    intro k hk hne
    rw [List.length_append, List.length_singleton] at hk
    omega
  refine ⟨fun k => if k = ns.length then n.children else K k, ⟨?_, ?_, ?_⟩, ?_, ?_⟩
  · exact List.nodup_append.mpr ⟨h1.nodup, by simp, fun x hx y hy e => ha (by rw [List.mem_singleton] at hy; rw [← hy, ← e]; exact hx)⟩
  · intro k i o hk hc
    split at hc
    · rename_i e
      have := (h3 o (hin _ (List.mem_of_getElem? hc) rfl)).1
      omega
    · rename_i e
      exact h1.low k i o (hold hk e) hc
  · intro k i k' i' o hk hk' hc hc'
    split at hc <;> rename_i e <;> split at hc' <;> rename_i e'
    · exact ⟨e.trans e'.symm, filter_inj hnd hc hc' (by simp)⟩
    · exact ((h3 o (hin _ (List.mem_of_getElem? hc) rfl)).2 k' i' (hold hk' e') hc').elim
    · exact ((h3 o (hin _ (List.mem_of_getElem? hc') rfl)).2 k i (hold hk e) hc).elim
    · exact h1.uniq k i k' i' o (hold hk e) (hold hk' e') hc hc'
  · intro k b hk
    by_cases e : k = ns.length
    · subst e
      simp only [List.getElem?_concat_length, Option.some.injEq] at hk
      subst hk
      exact ⟨n.keys, by simp only [if_true]; exact hn⟩
    · have hlt := hold (List.getElem?_eq_some_iff.mp hk).1 e
      rw [List.getElem?_append_left hlt] at hk
      simp only [if_neg e]
      exact h2 k b hk
  · intro o ho
    rw [List.length_append, List.length_singleton]
    rcases hop o ho with rfl | ⟨ho, hno⟩
    · refine ⟨by omega, fun k i hk hc => ?_⟩
      replace hc : (if k = ns.length then n.children else K k)[i]? = _ := hc
      split at hc
      · have := (h3 _ (hin _ (List.mem_of_getElem? hc) rfl)).1
        exact absurd this (Nat.lt_irrefl _)
      · rename_i e
        have hk' : k < ns.length := by omega
        have := h1.low k i _ hk' hc
        omega
    · refine ⟨by have := (h3 o ho).1; omega, fun k i hk hc => ?_⟩
      replace hc : (if k = ns.length then n.children else K k)[i]? = _ := hc
      split at hc
      · exact hno (List.mem_of_getElem? hc)
      · rename_i e
        exact (h3 o ho).2 k i (by omega) hc

/-- A path of nodes none of which mentions the block `N`. -/
structure Climbed (s : St) (N : Nat) (path : NodePath) : Prop where
  nodup : (path.map Prod.fst).Nodup
  node : ∀ e ∈ path, ∃ n, s.heap[e.1]? = some n ∧ e.2 ≤ n.keys.length ∧ ∀ c ∈ n.children, c.seq ≠ N

/-- The nodes of the path have a child at the index. -/
def Inner (s : St) (path : NodePath) : Prop := ∀ e ∈ path, ∀ n, s.heap[e.1]? = some n → e.2 < n.children.length

theorem Climbed.tail {s : St} {N : Nat} {e : Nat × Nat} {path : NodePath} (h : Climbed s N (e :: path)) : Climbed s N path :=
  ⟨(List.nodup_cons.mp h.nodup).2, fun x hx => h.node x (List.mem_cons_of_mem _ hx)⟩

theorem Climbed.frame {s s' : St} {N : Nat} {path : NodePath} (h : Climbed s N path)
    (hf : ∀ e ∈ path, s'.heap[e.1]? = s.heap[e.1]?) : Climbed s' N path :=
  ⟨h.nodup, fun e he => by rw [hf e he]; exact h.node e he⟩

theorem Inner.frame {s s' : St} {path : NodePath} (h : Inner s path)
    (hf : ∀ e ∈ path, s'.heap[e.1]? = s.heap[e.1]?) : Inner s' path :=
  fun e he n hn => h e he n (by rw [← hf e he]; exact hn)

theorem Inner.tail {s : St} {e : Nat × Nat} {path : NodePath} (h : Inner s (e :: path)) : Inner s path :=
  fun x hx => h x (List.mem_cons_of_mem _ hx)

/-- What the code that collects nodes leaves behind. -/
def Collected (ch : Changes) (s : St) (m : M Changes) : Prop :=
  ∃ ch' H', m s = (.ok ch', { s with heap := H' }) ∧ ch'.seq = ch.seq ∧ ch'.key = ch.key ∧ ch'.value = ch.value ∧
    ch'.nodes ≠ [] ∧ Drafted { s with heap := H' } ch.seq ch'.nodes []

theorem propagate_safe : ∀ (path : NodePath) (ch : Changes) (s : St) (o : Nat), Climbed s ch.seq path → Inner s path →
    (∀ e ∈ path, e.1 ∉ ch.nodes) → ch.nodes ≠ [] → Drafted s ch.seq ch.nodes [o] →
    Collected ch s (propagate ch path ⟨ch.seq, o⟩) := by
  intro path
  induction path with
  | nil =>
    intro ch s o _ _ _ hne h
    obtain ⟨K, h1, h2, h3⟩ := h
    exact ⟨ch, s.heap, rfl, rfl, rfl, rfl, hne, K, h1, h2, fun o ho => by cases ho⟩
  | cons e path ih =>
    intro ch s o hr hi hout hne h
    obtain ⟨a, j⟩ := e
    obtain ⟨n, hn, hj, hold⟩ := hr.node (a, j) List.mem_cons_self
    simp only at hn hj
    have hjl : j < n.children.length := hi (a, j) List.mem_cons_self n hn
    have hal : a < s.heap.length := (List.getElem?_eq_some_iff.mp hn).1
    have hset : setChild a j ⟨ch.seq, o⟩ s =
        (.ok (), { s with heap := s.heap.set a ⟨n.keys, n.children.set j ⟨ch.seq, o⟩⟩ }) := by
      unfold setChild
      rw [bind_ok (readNode_some hn), vecSet_eq hjl]
      rfl
    have hfr : ∀ b, b ≠ a → (s.heap.set a ⟨n.keys, n.children.set j ⟨ch.seq, o⟩⟩)[b]? = s.heap[b]? :=
      fun b hb => List.getElem?_set_ne (Ne.symm hb)
    have hnp := List.nodup_cons.mp hr.nodup
    have hpath : ∀ e ∈ path, e.1 ≠ a := fun e he hea => hnp.1 (List.mem_map.mpr ⟨e, he, hea⟩)
    have hanot : a ∉ ch.nodes := hout (a, j) List.mem_cons_self
    obtain ⟨s1, hs1⟩ : ∃ s1 : St, s1 = { s with heap := s.heap.set a ⟨n.keys, n.children.set j ⟨ch.seq, o⟩⟩ } := ⟨_, rfl⟩
    have hh1 : s1.heap = s.heap.set a ⟨n.keys, n.children.set j ⟨ch.seq, o⟩⟩ := by rw [hs1]
    have hd1 : Drafted s1 ch.seq ch.nodes [o] := h.frame fun b hb => by rw [hh1]; exact hfr b fun e => hanot (e ▸ hb)
    have hseteq : n.children.set j ⟨ch.seq, o⟩ = n.children.take j ++ ⟨ch.seq, o⟩ :: n.children.drop (j + 1) := by
      rw [List.set_eq_take_append_cons_drop, if_pos hjl]
    have hd2 : Drafted s1 ch.seq (ch.nodes ++ [a]) [ch.nodes.length] := by
      refine hd1.add (n := ⟨n.keys, n.children.set j ⟨ch.seq, o⟩⟩) hanot (by rw [hh1, List.getElem?_set_self hal]) ?_ ?_ ?_
      · intro c hc hcN
        rcases List.mem_or_eq_of_mem_set hc with hc | rfl
        · exact (hold c hc hcN).elim
        · exact List.mem_singleton_self _
      · show (inBlock ch.seq (n.children.set j ⟨ch.seq, o⟩)).Nodup
        rw [hseteq, inBlock_append, inBlock_none (fun c hc => hold c (List.mem_of_mem_take hc))]
        rw [inBlock, List.filter_cons_of_pos (by simp)]
        have := inBlock_none (N := ch.seq) (fun c hc => hold c (List.mem_of_mem_drop (i := j + 1) hc))
        rw [inBlock] at this
        rw [this]
        simp
      · intro o' ho'
        exact .inl (List.mem_singleton.mp ho')
    have hrun : propagate ch ((a, j) :: path) ⟨ch.seq, o⟩ s =
        propagate { ch with nodes := ch.nodes ++ [a] } path ⟨ch.seq, ch.nodes.length⟩ s1 := by
      conv_lhs => unfold propagate
      rw [bind_ok hset, hs1]
      rfl
    have := ih { ch with nodes := ch.nodes ++ [a] } s1 ch.nodes.length
      (hr.tail.frame fun e he => by rw [hh1]; exact hfr e.1 (hpath e he))
      (hi.tail.frame fun e he => by rw [hh1]; exact hfr e.1 (hpath e he))
      (fun e he hmem => by
        rcases List.mem_append.mp hmem with hm | hm
        · exact hout e (List.mem_cons_of_mem _ he) hm
        · exact hpath e he (List.mem_singleton.mp hm))
      (by simp) hd2
    unfold Collected at this ⊢
    rw [hrun]
    obtain ⟨ch', H', g1, g2, g3, g4, g5, g6⟩ := this
    exact ⟨ch', H', by rw [g1, hs1], g2, g3, g4, g5, by rw [hs1] at g6; exact g6⟩

theorem vecSplice_eq {l : List α} {i j : Nat} (h : i ≤ j ∧ j ≤ l.length) (new : List α) :
    vecSplice l i j new = some (l.take i ++ new ++ l.drop j) := by
  unfold vecSplice
  rw [if_pos h]

/-- `Node::insert` on a node that does not mention the block `N`. -/
theorem nodeInsert_safe {s : St} {N a i stop : Nat} {n : Node} {key : Nat} {children : List Child} (hn : s.heap[a]? = some n)
    (hs : i ≤ stop ∧ stop ≤ n.keys.length) (hold : ∀ c ∈ n.children, c.seq ≠ N)
    (hc : children = [] ∨ i < n.children.length) (hnew : ∀ c ∈ children, c.seq = N) (hnd : children.Nodup) :
    ∃ cs, nodeInsert a key children i stop s =
        (.ok (), { s with heap := s.heap.set a ⟨n.keys.take i ++ [key] ++ n.keys.drop stop, cs⟩ }) ∧
      (∀ c ∈ cs, c.seq = N → c ∈ children) ∧ (inBlock N cs).Nodup := by
  by_cases he : children = []
  · subst he
    refine ⟨n.children, ?_, fun c hc hN => (hold c hc hN).elim, by rw [inBlock_none hold]; exact List.nodup_nil⟩
    unfold nodeInsert
    rw [bind_ok (readNode_some hn), vecSplice_eq hs]
    rfl
  · have hi : i < n.children.length := hc.resolve_left he
    have hb : children.isEmpty = false := by simpa using he
    refine ⟨n.children.take i ++ children ++ n.children.drop (i + 1), ?_, ?_, ?_⟩
    · unfold nodeInsert childrenInsert
      rw [bind_ok (readNode_some hn), vecSplice_eq hs, hb, vecSplice_eq ⟨by omega, by omega⟩]
      rfl
    · intro c hc hN
      rcases List.mem_append.mp hc with hc | hc
      · rcases List.mem_append.mp hc with hc | hc
        · exact (hold c (List.mem_of_mem_take hc) hN).elim
        · exact hc
      · exact (hold c (List.mem_of_mem_drop hc) hN).elim
    · rw [inBlock_append, inBlock_append, inBlock_none (fun c hc => hold c (List.mem_of_mem_take hc)),
        inBlock_none (fun c hc => hold c (List.mem_of_mem_drop hc)), List.nil_append, List.append_nil]
      exact hnd.filter _

theorem putLoop_safe (matched : Bool) : ∀ (path : NodePath) (ch : Changes) (s : St) (key : Nat) (children : List Child)
    (op : List Nat), Climbed s ch.seq path → (children = [] ∨ Inner s path) → Inner s path.tail →
    (matched = true → ∀ e ∈ path.head?, ∀ n, s.heap[e.1]? = some n → e.2 < n.keys.length) →
    (∀ e ∈ path, e.1 ∉ ch.nodes) → Drafted s ch.seq ch.nodes op → (∀ c ∈ children, c.seq = ch.seq ∧ c.offset ∈ op) →
    children.Nodup → Collected ch s (putLoop matched path ch key children) := by
  intro path
  induction path with
  | nil =>
    intro ch s key children op _ _ _ _ _ hd hch hnd
    refine ⟨{ ch with nodes := ch.nodes ++ [s.heap.length] }, s.heap ++ [⟨[key], children⟩], rfl, rfl, rfl, rfl, by simp, ?_⟩
    have hfr : Drafted { s with heap := s.heap ++ [⟨[key], children⟩] } ch.seq ch.nodes op :=
      hd.frame fun a ha => List.getElem?_append_left (hd.lt ha)
    refine hfr.add (n := ⟨[key], children⟩) (fun h => Nat.lt_irrefl _ (hd.lt h)) (by simp)
      (fun c hc _ => (hch c hc).2) (hnd.filter _) (fun o ho => by cases ho)
  | cons e path ih =>
    intro ch s key children op hr hc hi hm hout hd hch hnd
    obtain ⟨a, j⟩ := e
    obtain ⟨n, hn, hj, hold⟩ := hr.node (a, j) List.mem_cons_self
    simp only at hn hj
    have hal : a < s.heap.length := (List.getElem?_eq_some_iff.mp hn).1
    have hnp := List.nodup_cons.mp hr.nodup
    have hpath : ∀ e ∈ path, e.1 ≠ a := fun e he hea => hnp.1 (List.mem_map.mpr ⟨e, he, hea⟩)
    have hplt : ∀ e ∈ path, e.1 < s.heap.length := fun e he => by
      obtain ⟨m, hm, _⟩ := hr.tail.node e he
      exact (List.getElem?_eq_some_iff.mp hm).1
    have hanot : a ∉ ch.nodes := hout (a, j) List.mem_cons_self
    have hcj : children = [] ∨ j < n.children.length := hc.imp id fun h => h (a, j) List.mem_cons_self n hn
    have hset : ∀ (m : Node) (b : Nat), b ≠ a → (s.heap.set a m)[b]? = s.heap[b]? := fun m b hb => List.getElem?_set_ne (Ne.symm hb)
    by_cases hroom : matched = true ∨ n.keys.length < MAX_KEYS
    · have hstop : j ≤ (if matched = true then j + 1 else j) ∧ (if matched = true then j + 1 else j) ≤ n.keys.length := by
        split
        · rename_i h
          have := hm h (a, j) (by simp) n hn
          simp only at this
          omega
        · omega
      obtain ⟨cs, hrun, hin, hcnd⟩ := nodeInsert_safe (key := key) hn hstop hold hcj (fun c hc => (hch c hc).1) hnd
      generalize hks : n.keys.take j ++ [key] ++ n.keys.drop (if matched = true then j + 1 else j) = ks at hrun
      have hd1 : Drafted { s with heap := s.heap.set a ⟨ks, cs⟩ } ch.seq (ch.nodes ++ [a]) [ch.nodes.length] := by
        refine Drafted.add (n := ⟨ks, cs⟩) (hd.frame fun b hb => hset _ b fun e => hanot (e ▸ hb)) hanot
          (List.getElem?_set_self hal) (fun c hc hN => (hch c (hin c hc hN)).2) hcnd (fun o ho => .inl (List.mem_singleton.mp ho))
      have hput : putLoop matched ((a, j) :: path) ch key children s =
          (if path.isEmpty then Pure.pure { ch with nodes := ch.nodes ++ [a] }
            else propagate { ch with nodes := ch.nodes ++ [a] } path ⟨ch.seq, ch.nodes.length⟩)
            { s with heap := s.heap.set a ⟨ks, cs⟩ } := by
        conv_lhs => unfold putLoop
        rw [bind_ok (readNode_some hn)]
        simp only
        rw [if_pos hroom]
        rw [bind_ok hrun]
        rfl
      unfold Collected
      rw [hput]
      cases path with
      | nil =>
        obtain ⟨K, k1, k2, k3⟩ := hd1
        exact ⟨_, _, rfl, rfl, rfl, rfl, by simp, K, k1, k2, fun o ho => by cases ho⟩
      | cons e' path' =>
        have := propagate_safe (e' :: path') { ch with nodes := ch.nodes ++ [a] } { s with heap := s.heap.set a ⟨ks, cs⟩ } ch.nodes.length
          (hr.tail.frame fun e he => hset _ e.1 (hpath e he)) (Inner.frame hi fun e he => hset _ e.1 (hpath e he))
          (fun e he hmem => by
            rcases List.mem_append.mp hmem with h | h
            · exact hout e (List.mem_cons_of_mem _ he) h
            · exact hpath e he (List.mem_singleton.mp h))
          (by simp) hd1
        obtain ⟨ch', H', g1, g2, g3, g4, g5, g6⟩ := this
        exact ⟨ch', H', g1, g2, g3, g4, g5, g6⟩
    · have hmf : matched = false := by
        cases matched with
        | false => rfl
        | true => exact (hroom (.inl rfl)).elim
      obtain ⟨cs, hrun, hin, hcnd⟩ := nodeInsert_safe (key := key) (stop := j) hn ⟨Nat.le_refl _, hj⟩ hold hcj
        (fun c hc => (hch c hc).1) hnd
      generalize hks : n.keys.take j ++ [key] ++ n.keys.drop j = ks at hrun
      have hkl : 1 ≤ ks.length := by rw [← hks]; simp; omega
      obtain ⟨mid, rest, hdrop⟩ : ∃ mid rest, ks.drop (ks.length >>> 1) = mid :: rest := by
        cases hx : ks.drop (ks.length >>> 1) with
        | nil =>
          have := congrArg List.length hx
          rw [List.length_drop, List.length_nil, Nat.shiftRight_eq_div_pow] at this
          omega
        | cons x xs => exact ⟨x, xs, rfl⟩
      generalize hcm : cs.length >>> 1 = cm
      obtain ⟨s2, hs2⟩ : ∃ s2 : St, s2 = { s with heap := (s.heap.set a ⟨[], []⟩ ++ [⟨ks.take (ks.length >>> 1), cs.take cm⟩]) ++
          [⟨rest, cs.drop cm⟩] } := ⟨_, rfl⟩
      have hh2 : s2.heap = (s.heap.set a ⟨[], []⟩ ++ [⟨ks.take (ks.length >>> 1), cs.take cm⟩]) ++ [⟨rest, cs.drop cm⟩] := by rw [hs2]
      have hold2 : ∀ b, b < s.heap.length → b ≠ a → s2.heap[b]? = s.heap[b]? := by
        intro b hb hba
        rw [hh2, List.append_assoc, List.getElem?_append_left (by simpa using hb)]
        exact hset _ b hba
      have hl2 : s2.heap[s.heap.length]? = some ⟨ks.take (ks.length >>> 1), cs.take cm⟩ := by
        rw [hh2, List.append_assoc, List.getElem?_append_right (by simp)]
        simp
      have hr2 : s2.heap[s.heap.length + 1]? = some ⟨rest, cs.drop cm⟩ := by
        rw [hh2, List.append_assoc, List.getElem?_append_right (by simp)]
        simp
      have hsplit : split a { s with heap := s.heap.set a ⟨ks, cs⟩ } = (.ok (s.heap.length, mid, s.heap.length + 1), s2) := by
        unfold split
        rw [bind_ok (readNode_some (List.getElem?_set_self hal))]
        simp only
        rw [show vecRemove (ks.drop (ks.length >>> 1)) 0 = some (mid, rest) by rw [hdrop]; rfl]
        simp only [orPanic_some, pure_bind_run]
        rw [bind_ok (writeNode_run _ _ _), bind_ok (alloc_run _ _), bind_ok (alloc_run _ _), hs2, hcm]
        simp [pure_run]
      have hsum : inBlock ch.seq cs = inBlock ch.seq (cs.take cm) ++ inBlock ch.seq (cs.drop cm) := by
        rw [← inBlock_append, List.take_append_drop]
      rw [hsum] at hcnd
      obtain ⟨hn1, hn2, hn3⟩ := List.nodup_append.mp hcnd
      have hfr : Drafted s2 ch.seq ch.nodes op := hd.frame fun b hb => hold2 b (hd.lt hb) fun e => hanot (e ▸ hb)
      have hd1 : Drafted s2 ch.seq (ch.nodes ++ [s.heap.length])
          (ch.nodes.length :: op.filter fun o => (⟨ch.seq, o⟩ : Child) ∉ cs.take cm) := by
        refine hfr.add (fun h => Nat.lt_irrefl _ (hd.lt h)) hl2 (fun c hc hN => (hch c (hin c (List.mem_of_mem_take hc) hN)).2) hn1 ?_
        intro o ho
        rcases List.mem_cons.mp ho with rfl | ho
        · exact .inl rfl
        · have := List.mem_filter.mp ho
          exact .inr ⟨this.1, by simpa using this.2⟩
      have hd2 : Drafted s2 ch.seq (ch.nodes ++ [s.heap.length] ++ [s.heap.length + 1]) [ch.nodes.length, ch.nodes.length + 1] := by
        refine hd1.add (fun h => ?_) hr2 (fun c hc hN => ?_) hn2 ?_
        · rcases List.mem_append.mp h with h | h
          · have := hd.lt h; omega
          · have := List.mem_singleton.mp h; omega
        · refine List.mem_cons_of_mem _ (List.mem_filter.mpr ⟨(hch c (hin c (List.mem_of_mem_drop hc) hN)).2, ?_⟩)
          have : c = ⟨ch.seq, c.offset⟩ := by rw [← hN]
          rw [← this]
          simp only [decide_not, Bool.not_eq_eq_eq_not, Bool.not_true, decide_eq_false_iff_not]
          intro h
          exact hn3 c (mem_inBlock.mpr ⟨h, hN⟩) c (mem_inBlock.mpr ⟨hc, hN⟩) rfl
        · intro o ho
          rcases List.mem_cons.mp ho with rfl | ho
          · refine .inr ⟨List.mem_cons_self, fun h => ?_⟩
            have h1 := (hch _ (hin _ (List.mem_of_mem_drop h) rfl)).2
            obtain ⟨K, _, _, k3⟩ := hd
            exact absurd (k3 _ h1).1 (Nat.lt_irrefl _)
          · rw [List.mem_singleton] at ho
            exact .inl (by rw [ho]; simp)
      have hput : putLoop matched ((a, j) :: path) ch key children s =
          putLoop matched path { ch with nodes := ch.nodes ++ [s.heap.length] ++ [s.heap.length + 1] } mid
            [⟨ch.seq, ch.nodes.length⟩, ⟨ch.seq, ch.nodes.length + 1⟩] s2 := by
        conv_lhs => unfold putLoop
        rw [bind_ok (readNode_some hn)]
        simp only
        rw [if_neg hroom, bind_ok hrun, bind_ok hsplit]
        simp [Changes.addNode]
      have := ih { ch with nodes := ch.nodes ++ [s.heap.length] ++ [s.heap.length + 1] } s2 mid
        [⟨ch.seq, ch.nodes.length⟩, ⟨ch.seq, ch.nodes.length + 1⟩] [ch.nodes.length, ch.nodes.length + 1]
        (hr.tail.frame fun e he => hold2 e.1 (hplt e he) (hpath e he))
        (.inr (Inner.frame hi fun e he => hold2 e.1 (hplt e he) (hpath e he)))
        (Inner.frame (fun e he => hi e (List.mem_of_mem_tail he))
          fun e he => hold2 e.1 (hplt e (List.mem_of_mem_tail he)) (hpath e (List.mem_of_mem_tail he)))
        (fun h => by rw [hmf] at h; cases h)
        (fun e he hmem => by
          rcases List.mem_append.mp hmem with h | h
          · rcases List.mem_append.mp h with h | h
            · exact hout e (List.mem_cons_of_mem _ he) h
            · have := hplt e he; rw [List.mem_singleton.mp h] at this; exact Nat.lt_irrefl _ this
          · have h1 := hplt e he
            rw [List.mem_singleton.mp h] at h1
            exact absurd h1 (Nat.not_lt.mpr (Nat.le_succ _)))
        hd2 (fun c hc => by
          rcases List.mem_cons.mp hc with rfl | hc
          · exact ⟨rfl, by simp⟩
          · rw [List.mem_singleton.mp hc]; exact ⟨rfl, by simp⟩)
        (by simp)
      unfold Collected at this ⊢
      rw [hput]
      obtain ⟨ch', H', g1, g2, g3, g4, g5, g6⟩ := this
      exact ⟨ch', H', by rw [g1, hs2], g2, g3, g4, g5, by rw [hs2] at g6; exact g6⟩

/-! ## Writing the block -/

theorem readNodes_safe : ∀ (as : List Nat) (s : St), (∀ a ∈ as, ∃ n, s.heap[a]? = some n) → ∃ ns, readNodes as s = (.ok ns, s)
  | [], _, _ => ⟨[], rfl⟩
  | a :: as, s, h => by
    obtain ⟨n, hn⟩ := h a List.mem_cons_self
    obtain ⟨ns, hns⟩ := readNodes_safe as s fun b hb => h b (List.mem_cons_of_mem _ hb)
    exact ⟨n :: ns, by rw [readNodes, bind_ok (readNode_some hn), bind_ok hns]; rfl⟩

theorem addChanges_safe {s : St} {ch : Changes} (hne : ch.nodes ≠ []) (hd : Drafted s ch.seq ch.nodes [])
    (hok : s.io.appendOk = true) :
    ∃ ns H', addChanges ch s = (.ok (s.core.length + 1), { s with core := s.core ++ [encodeBlock ch.key ch.value ns], heap := H' }) := by
  obtain ⟨K, h1, h2, _⟩ := hd
  have hlen : 0 < ch.nodes.length := List.length_pos_iff.mpr hne
  obtain ⟨r, hr⟩ : ∃ r, ch.nodes[ch.nodes.length - 1]? = some r := ⟨_, List.getElem?_eq_getElem (by omega)⟩
  obtain ⟨ks, hks⟩ := h2 _ r hr
  have htake : takeChildrenWithSeq r ch.seq s =
      (.ok ((indicesWithSeq ch.seq 0 (K (ch.nodes.length - 1))).map fun j => (r, j)), s) := by
    unfold takeChildrenWithSeq
    rw [bind_ok (readNode_some hks)]
    rfl
  have hstack : ∀ a i, (a, i) ∈ (indicesWithSeq ch.seq 0 (K (ch.nodes.length - 1))).map (fun j => (r, j)) →
      a = r ∧ ∃ o, (K (ch.nodes.length - 1))[i]? = some ⟨ch.seq, o⟩ := by
    intro a i hm
    obtain ⟨j, hj, e⟩ := List.mem_map.mp hm
    cases e
    obtain ⟨t, o, e1, e2⟩ := mem_indices hj
    exact ⟨rfl, o, by rw [e1, Nat.zero_add]; exact e2⟩
  have hg : Going ch.seq ch.nodes K s ((indicesWithSeq ch.seq 0 (K (ch.nodes.length - 1))).map fun j => (r, j)) [ch.nodes.length - 1] := by
    refine ⟨by simp, ?_, fun k a hk _ => h2 k a hk, ?_, ?_, ?_, ?_⟩
    · intro k hk
      rw [List.mem_singleton] at hk
      omega
    · intro a ha
      obtain ⟨k, hk⟩ := List.getElem?_of_mem ha
      obtain ⟨ks', hks'⟩ := h2 k a hk
      exact ⟨_, hks'⟩
    · exact List.Nodup.map (fun _ _ e => by cases e; rfl) (nodup_indices _ 0)
    · intro a i hm
      obtain ⟨rfl, o, ho⟩ := hstack a i hm
      exact ⟨_, List.mem_singleton_self _, hr, _, o, hks, ho, ho⟩
    · intro v hv
      rw [List.mem_singleton] at hv
      exact .inl (by omega)
  obtain ⟨out, H', e1, e2, e3⟩ := reorderLoop_safe h1 ch.nodes.length _ _ [r] s hg (by simp) (by
    intro b hb
    rw [List.mem_singleton] at hb
    rw [hb]
    exact List.mem_of_getElem? hr)
  obtain ⟨ns, hns⟩ := readNodes_safe out { s with heap := H' } fun a ha => e3 a (e2 a ha)
  have hre : reorderNodes ch.seq ch.nodes s = (.ok out, { s with heap := H' }) := by
    unfold reorderNodes
    rw [List.getLast?_eq_getElem?, hr]
    simp only [orPanic_some, pure_bind_run]
    rw [bind_ok htake, e1]
  unfold addChanges
  rw [bind_ok hre, bind_ok hns]
  refine ⟨ns, H', ?_⟩
  unfold coreAppend
  rw [if_pos hok]

/-! ## The search -/

/-- A node on the way down: the search went to its child `j`. -/
def Passed (s : St) (e : Nat × Nat) : Prop := ∃ r n, At s r e.1 n ∧ e.2 ≤ n.keys.length ∧ e.2 < n.children.length

/-- The node at the end. -/
def Arrived (s : St) (e : Nat × Nat) (matched : Bool) : Prop :=
  ∃ r n, At s r e.1 n ∧ e.2 ≤ n.keys.length ∧ (matched = true → e.2 < n.keys.length)

/-- What a search leaves behind: the path it went, on which no node is twice. -/
structure Trodden (s : St) (matched : Bool) (path : NodePath) : Prop where
  last : ∃ e rest, path = e :: rest ∧ Arrived s e matched ∧ ∀ x ∈ rest, Passed s x
  nodup : (path.map Prod.fst).Nodup

theorem nodup_of_at {s : St} (hs : Clean s) : ∀ {xs : List (Nat × Nat)} {as : List Nat}, xs.Nodup →
    List.Forall₂ (fun x a => addrOf s ⟨x.1, x.2⟩ = some a) xs as → as.Nodup := by
  intro xs as hx h
  induction h with
  | nil => exact List.nodup_nil
  | cons h1 h2 ih =>
    rename_i x a xs as
    have hx' := List.nodup_cons.mp hx
    refine List.nodup_cons.mpr ⟨fun hm => ?_, ih hx'.2⟩
    have : ∀ {ys : List (Nat × Nat)} {bs : List Nat}, List.Forall₂ (fun x a => addrOf s ⟨x.1, x.2⟩ = some a) ys bs → a ∈ bs → x ∈ ys := by
      intro ys bs h
      induction h with
      | nil => intro h; cases h
      | cons g1 g2 ih =>
        intro hm
        rcases List.mem_cons.mp hm with rfl | hm
        · have e := hs.wf.inj _ _ _ h1 g1
          rw [Child.mk.injEq] at e
          rw [Prod.ext e.1 e.2]
          exact List.mem_cons_self
        · exact List.mem_cons_of_mem _ (ih hm)
    exact hx'.1 (this h2 hm)

theorem nearestLoop_trodden (key : LimitValue) : ∀ (fuel : Nat) {s : St} (_ : Clean s) (_ : ¬ CyclicRefs s.core)
    (_ : ¬ TooFewChildren s.core) {r : Child} {a : Nat} {n : Node}
    (_ : At s r a n) (path : NodePath) (xs : List (Nat × Nat)), PathTo s.core r xs → stepBound s.core ≤ xs.length + fuel →
    (∀ x ∈ path, Passed s x) → List.Forall₂ (fun x a => addrOf s ⟨x.1, x.2⟩ = some a) xs (a :: path.map Prod.fst) →
    Fair s (nearestLoop key fuel a path) fun p s' => Trodden s' p.1.isSome p.2 := by
  intro fuel
  induction fuel with
  | zero =>
    intro s hs hcyc _ r a n ha path xs hp hf
    exact (hcyc (cycle_of_long hp.desc hp.real (by omega))).elim
  | succ fuel ih =>
    intro s hs hcyc hfew r a n ha path xs hp hf hpass hxs
    unfold nearestLoop
    refine Fair.bind hs (getIndexOfKey_fair key hs ha) ?_
    rintro ⟨matched, ci⟩ s1 l1 c1 ⟨h1, h2⟩
    have ha1 := ha.later hs l1
    have hpass1 : ∀ x ∈ path, Passed s1 x := fun x hx => by
      obtain ⟨r', n', g1, g2⟩ := hpass x hx
      exact ⟨r', n', g1.later hs l1, g2⟩
    have hxs1 : List.Forall₂ (fun x a => addrOf s1 ⟨x.1, x.2⟩ = some a) xs (a :: path.map Prod.fst) :=
      hxs.imp fun _ _ h => l1.addr h
    simp only at h1 h2
    simp only
    refine Fair.bind c1 (isLeaf_fair c1 ha1) ?_
    rintro leaf s2 l2 c2 ⟨rfl, hleaf⟩
    split
    · refine Fair.pure c2 ⟨⟨(a, ci), path, rfl, ⟨r, n, ha1, h1, h2⟩, hpass1⟩, ?_⟩
      refine nodup_of_at c2 ?_ hxs1
      refine hp.desc.imp ?_
      intro x y h e
      subst e
      exact hcyc ⟨_, h⟩
    · rename_i hb
      have hnl : n.children ≠ [] := by
        intro h
        rw [hleaf.mpr h] at hb
        simp at hb
      have hci : ci < n.children.length := by
        apply Classical.byContradiction
        intro hge
        obtain ⟨w, ls, l, g1, g2, g3, g4⟩ := nodeAt_wire ha.node
        refine hfew ⟨r.seq, w, ls, l, g1, List.mem_of_getElem? g2, ?_, ?_⟩
        · intro h
          rw [h] at g4
          have := length_pairs n.children
          rw [← g4] at this
          exact hnl (List.length_eq_zero_iff.mp (by simp at this; omega))
        · rw [g4, length_pairs, g3]; omega
      refine Fair.bind c2 (getChild_fair c2 ha1 h1 hnl) ?_
      rintro a' s3 l3 c3 ⟨x, n', hx, hr⟩
      have hcore : s3.core = s.core := l3.core.trans l1.core
      refine ih c3 (by rw [hcore]; exact hcyc) (by rw [hcore]; exact hfew) hx _ ((x.seq, x.offset) :: xs) ?_ ?_ ?_ ?_
      · rw [hcore]
        rw [l1.core] at hr
        exact hp.snoc hr (by rw [← hcore]; exact hx.node)
      · rw [hcore]; simp; omega
      · intro y hy
        rcases List.mem_cons.mp hy with rfl | hy
        · exact ⟨r, n, ha1.later c2 l3, h1, hci⟩
        · obtain ⟨r', n', g1, g2⟩ := hpass1 y hy
          exact ⟨r', n', g1.later c2 l3, g2⟩
      · exact .cons hx.addr (hxs1.imp fun _ _ h => l3.addr h)

theorem getRoot_same {s : St} (h : 2 ≤ s.core.length) : getRoot true s = getRoot false s := by
  unfold getRoot
  rw [bind_ok (version_run s), bind_ok (version_run s), if_neg (by omega), if_neg (by omega)]

/-! ## The call -/

/-- The defects that stop neither a lookup nor an insertion: none of the four that a lookup fails
on, and no node lists a child in the block that comes next. -/
structure Fit (core : List Bytes) : Prop where
  odd : ¬ OddChildren core
  node : ¬ NoSuchNode core
  few : ¬ TooFewChildren core
  cycle : ¬ CyclicRefs core
  next : ¬ NamesNext core

/-- `m` returns something with `Q`, or reports a block that cannot be decoded or is not there. -/
def Polite (s : St) (m : M α) (Q : α → St → Prop) : Prop :=
  match m s with
  | (.ok a, s') => Q a s'
  | (.error e, s') => (e = .decode ∨ ∃ q, e = .noBlockAtSeq q) ∧ s'.core = s.core

theorem Polite.of_fair {s : St} (hf : Fit s.core) {m : M α} {Q : α → St → Prop} (h : Fair s m Q) :
    Polite s m fun a s' => Later s s' ∧ Q a s' := by
  unfold Fair at h
  unfold Polite
  cases hm : m s with
  | mk r s1 =>
    rw [hm] at h
    cases r with
    | ok a => exact h
    | error e =>
      obtain ⟨hl, hb⟩ := h
      refine ⟨?_, hl.core⟩
      cases hb with
      | decode => exact .inl rfl
      | missing q => exact .inr ⟨q, rfl⟩
      | odd h => exact (hf.odd h).elim
      | node h => exact (hf.node h).elim
      | few h => exact (hf.few h).elim
      | cycle h => exact (hf.cycle h).elim

theorem Polite.bind {s : St} {m : M α} {f : α → M β} {Q : α → St → Prop} {R : β → St → Prop} (h : Polite s m Q)
    (hf : ∀ a s', Q a s' → s'.core = s.core ∧ Polite s' (f a) R) : Polite s (m >>= f) R := by
  unfold Polite at h ⊢
  rw [bind_run]
  cases hm : m s with
  | mk r s1 =>
    rw [hm] at h
    cases r with
    | error e => exact h
    | ok a =>
      obtain ⟨h1, h2⟩ := hf a s1 h
      unfold Polite at h2
      cases hr : f a s1 with
      | mk r2 s2 =>
        simp only [hr]
        rw [hr] at h2
        cases r2 with
        | ok b => exact h2
        | error e => exact ⟨h2.1, h2.2.trans h1⟩

/-- How a call that writes ends: nothing is written, or one block with the key and the value. -/
def OneBlock (c : List Bytes) (k : Bytes) (v : Option Bytes) (cas : Option KeyValueData → KeyValueData → Bool)
    (p : Option Nat × Option Nat) (s' : St) : Prop :=
  (p.2 = none ∧ s'.core = c ∧ ∃ old, cas old ⟨c.length, k, v⟩ = false) ∨ (p.2 = some c.length ∧ ∃ ns, s'.core = c ++ [encodeBlock k v ns])

theorem commit_safe {s : St} {ch : Changes} {m : M Changes} (h : Collected ch s m) (hok : s.io.appendOk = true) (old : Option Nat) :
    ∃ ns H', (m >>= fun x => Pure.pure (Prepared.commit x (old, some ch.seq))) s = (.ok (.commit ns (old, some ch.seq)), { s with heap := H' }) ∧
      ∃ xs H'', commitPrepared (.commit ns (old, some ch.seq)) { s with heap := H' } =
        (.ok (old, some ch.seq), { s with core := s.core ++ [encodeBlock ch.key ch.value xs], heap := H'' }) := by
  obtain ⟨ch', H', h1, h2, h3, h4, h5, h6⟩ := h
  refine ⟨ch', H', ?_, ?_⟩
  · rw [bind_ok h1]; rfl
  · obtain ⟨xs, H'', g⟩ := addChanges_safe (s := { s with heap := H' }) h5 (by rw [h2]; exact h6) hok
    refine ⟨xs, H'', ?_⟩
    show (addChanges ch' >>= fun _ => Pure.pure (old, some ch.seq)) _ = _
    rw [bind_ok g, h3, h4]
    rfl

theorem put_empty_polite {s : St} (hlen : s.core.length ≤ 1) (hok : s.io.appendOk = true) (k : Bytes) (v : Option Bytes)
    (cas : Option KeyValueData → KeyValueData → Bool) :
    ∃ p s', putCompareAndSwap k v cas s = (.ok p, s') ∧ OneBlock s.ready.core k v cas p s' := by
  have hroot : getRoot true s = (.ok none, s.ready) := by
    unfold St.ready
    split
    · rename_i h0; exact getRoot_zero h0 hok
    · unfold getRoot
      rw [bind_ok (version_run s), if_pos hlen, if_neg (by omega)]
      rfl
  have hok' : s.ready.io.appendOk = true := by unfold St.ready; split <;> exact hok
  generalize s.ready = t at hroot hok'
  unfold putCompareAndSwap
  rw [putPrepare_eq, bind_run, bind_ok hroot]
  unfold putAfter
  rw [bind_ok (version_run t)]
  simp only
  by_cases hc : cas none ⟨t.core.length, k, v⟩ = false
  · rw [if_pos hc]
    exact ⟨_, _, rfl, .inl ⟨rfl, rfl, none, hc⟩⟩
  · rw [if_neg hc]
    have hcol : Collected (Changes.new t.core.length k v) t (putLoop false [] (Changes.new t.core.length k v) t.core.length []) :=
      putLoop_safe false [] _ t _ [] [] ⟨by simp, fun e he => by cases he⟩ (.inl rfl) (fun e he => by cases he)
        (fun h => by cases h) (fun e he => by cases he) (Drafted.nil _ _) (fun c hc => by cases hc) List.nodup_nil
    obtain ⟨ch', H', h1, xs, H'', h2⟩ := commit_safe hcol hok' none
    simp only [Changes.new] at h1 h2
    refine ⟨(none, some t.core.length), { t with core := t.core ++ [encodeBlock k v xs], heap := H'' }, ?_, .inr ⟨rfl, xs, rfl⟩⟩
    simp only [Changes.new]
    rw [h1]
    exact h2

theorem put_polite {s : St} (hs : Clean s) (hf : Fit s.core) (hlen : 2 ≤ s.core.length) (hok : s.io.appendOk = true) (k : Bytes)
    (v : Option Bytes) (cas : Option KeyValueData → KeyValueData → Bool) :
    Polite s (putCompareAndSwap k v cas) (OneBlock s.core k v cas) := by
  unfold putCompareAndSwap
  rw [putPrepare_eq]
  have hassoc : ((getRoot true >>= putAfter k v cas) >>= commitPrepared) s =
      (getRoot true >>= fun o => putAfter k v cas o >>= commitPrepared) s := by
    rw [bind_run, bind_run, bind_run]
    cases getRoot true s with
    | mk r s1 => cases r <;> rfl
  unfold Polite
  rw [hassoc]
  show Polite s (getRoot true >>= fun o => putAfter k v cas o >>= commitPrepared) (OneBlock s.core k v cas)
  have hroot : Polite s (getRoot true) fun o s' => Later s s' ∧ (match o with
    | none => s.core.length ≤ 1
    | some a => ∃ r n, At s' r a n) := by
    have := Polite.of_fair hf (getRoot_fair hs)
    unfold Polite at this ⊢
    rw [getRoot_same hlen]
    exact this
  refine hroot.bind ?_
  rintro o s1 ⟨l1, ho⟩
  refine ⟨l1.core, ?_⟩
  have c1 := l1.clean hs
  cases o with
  | none => simp only at ho; omega
  | some root =>
    obtain ⟨r, n, ha⟩ := ho
    have hrun : (putAfter k v cas (some root) >>= commitPrepared) s1 =
        (nearestNode root (.finite k) >>= fun p =>
          (if p.1.isSome then orPanic "put.rs:109 path[path.len() - 1]" p.2.head? >>= fun x =>
              getKeyValue x.1 x.2 >>= fun kv => Pure.pure (some kv) else Pure.pure none) >>= fun old =>
          (if cas old ⟨s1.core.length, k, v⟩ = false then Pure.pure (.done (p.1, none))
            else putLoop p.1.isSome p.2 (Changes.new s1.core.length k v) s1.core.length [] >>= fun ch =>
              Pure.pure (.commit ch (p.1, some s1.core.length))) >>= commitPrepared) s1 := by
      unfold putAfter
      rw [bind_run, bind_ok (version_run s1)]
      simp only
      rw [bind_run, bind_run]
      cases nearestNode root (.finite k) s1 with
      | mk r s2 =>
        cases r with
        | error e => rfl
        | ok p =>
          obtain ⟨m, p⟩ := p
          simp only
          cases m with
          | none => rfl
          | some m =>
            cases p with
            | nil => rfl
            | cons e p =>
              simp only [Option.isSome_some, if_true, List.head?_cons, orPanic_some, bind_run, pure_run]
              cases getKeyValue e.1 e.2 s2 with
              | mk r s3 => cases r <;> rfl
    unfold Polite
    rw [hrun]
    have hf1 : Fit s1.core := by rw [l1.core]; exact hf
    have hnear : Fair s1 (nearestNode root (.finite k)) fun p s' => Trodden s' p.1.isSome p.2 := by
      unfold nearestNode
      refine Fair.bind c1 (Q := fun f s' => f = stepBound s1.core ∧ s' = s1) ⟨Later.refl c1, rfl, rfl⟩ ?_
      rintro f s' _ _ ⟨rfl, rfl⟩
      exact nearestLoop_trodden _ _ c1 hf1.cycle hf1.few ha [] _ (PathTo.one ha.node) (by simp) (fun x hx => by cases hx)
        (.cons ha.addr .nil)
    refine (Polite.of_fair hf1 hnear).bind ?_
    rintro ⟨m, path⟩ s2 ⟨l2, ht⟩
    refine ⟨l2.core, ?_⟩
    have c2 := l2.clean c1
    have hf2 : Fit s2.core := by rw [l2.core]; exact hf1
    simp only at ht
    obtain ⟨⟨e, rest, hpath, ⟨r', n', he1, he2, he3⟩, hrest⟩, hnd⟩ := ht
    subst hpath
    have hold : Fair s2 (if m.isSome = true then orPanic "put.rs:109 path[path.len() - 1]" (e :: rest).head? >>= fun x =>
        getKeyValue x.1 x.2 >>= fun kv => Pure.pure (some kv) else Pure.pure none : M (Option KeyValueData)) fun _ _ => True := by
      split
      · rename_i hm
        simp only [List.head?_cons, orPanic_some]
        show Fair s2 (getKeyValue e.1 e.2 >>= fun kv => Pure.pure _) _
        exact Fair.bind c2 (getKeyValue_fair c2 he1 (he3 hm)) fun kv s3 _ c3 _ => Fair.pure c3 trivial
      · exact Fair.pure c2 trivial
    refine (Polite.of_fair hf2 hold).bind ?_
    rintro old s3 ⟨l3, -⟩
    refine ⟨l3.core, ?_⟩
    have c3 := l3.clean c2
    have hcore : s3.core = s.core := l3.core.trans (l2.core.trans l1.core)
    have hio : s3.io.appendOk = true := by rw [l3.io, l2.io, l1.io]; exact hok
    simp only
    rw [show s1.core.length = s.core.length by rw [l1.core]]
    have hchild : ∀ {x a m}, At s3 x a m → ∀ c ∈ m.children, c.seq ≠ s.core.length := by
      intro x a m hx c hc
      obtain ⟨j, hj⟩ := List.getElem?_of_mem hc
      have hn := hx.node
      rw [hcore] at hn
      intro e
      exact hf.next ⟨_, _, nodeAt_refers hn hj, e⟩
    by_cases hcas : cas old ⟨s.core.length, k, v⟩ = false
    · rw [if_pos hcas]
      exact .inl ⟨rfl, hcore, old, hcas⟩
    · rw [if_neg hcas]
      have hcl : Climbed s3 s.core.length (e :: rest) := by
        refine ⟨hnd, fun x hx => ?_⟩
        rcases List.mem_cons.mp hx with rfl | hx
        · have := he1.later c2 l3
          exact ⟨n', this.heap, he2, hchild this⟩
        · obtain ⟨rr, nn, g1, g2, g3⟩ := hrest x hx
          have := g1.later c2 l3
          exact ⟨nn, this.heap, g2, hchild this⟩
      have hcol : Collected (Changes.new s.core.length k v) s3
          (putLoop m.isSome (e :: rest) (Changes.new s.core.length k v) s.core.length []) := by
        refine putLoop_safe m.isSome (e :: rest) _ s3 _ [] [] hcl (.inl rfl) ?_ ?_ (fun e he h => by cases h)
          (Drafted.nil _ _) (fun c hc => by cases hc) List.nodup_nil
        · intro x hx nn hnn
          obtain ⟨rr, n2, g1, g2, g3⟩ := hrest x hx
          have := (g1.later c2 l3).heap
          rw [this] at hnn
          cases hnn
          exact g3
        · intro hm x hx nn hnn
          cases hx
          have := (he1.later c2 l3).heap
          rw [this] at hnn
          cases hnn
          exact he3 hm
      obtain ⟨ch', H', h1, xs, H'', h2⟩ := commit_safe hcol hio m
      simp only [Changes.new] at h1 h2
      unfold Polite
      rw [bind_run]
      simp only [Changes.new]
      rw [h1]
      simp only
      rw [h2]
      exact .inr ⟨rfl, xs, by rw [hcore]⟩

/-! ## Deletions that find nothing -/

theorem del_of_get {s : St} {k : Bytes} :
    (∀ e, (get k s).1 = .error e → e ≠ .panic "tree.rs:99 path.last()" → (del k s).1 = .error e ∧ (del k s).2 = (get k s).2) ∧
    ((get k s).1 = .ok none → (del k s).1 = .ok none ∧ (del k s).2 = (get k s).2) := by
  unfold get del delCompareAndSwap delPrepare
  simp only [bind_run]
  cases getRoot false s with
  | mk r s1 =>
    cases r with
    | error e => simp
    | ok o =>
      cases o with
      | none => simp [pure_run, commitPrepared]
      | some root =>
        simp only [bind_run]
        cases nearestNode root (.finite k) s1 with
        | mk r s2 =>
          cases r with
          | error e => simp
          | ok p =>
            obtain ⟨m, path⟩ := p
            cases m with
            | none => simp [pure_run, commitPrepared]
            | some q =>
              simp only [Option.isSome_some, if_true, bind_run]
              cases path with
              | nil => simp [orPanic, throw]
              | cons x rest =>
                simp only [List.head?_cons, orPanic_some, pure_run]
                cases getKeyValue x.1 x.2 s2 with
                | mk r s3 =>
                  cases r with
                  | error e => simp
                  | ok kv => simp

end Hyperbee
