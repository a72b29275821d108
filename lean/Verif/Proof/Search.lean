import Verif.Proof.Core
/-!
# Abstract trees, zippers, and the search
-/

namespace Hyperbee

/-- A tree of nodes: the reference of the node, its keys (block numbers) and its subtrees. -/
inductive T where
  | mk (ref : Child) (keys : List Nat) (kids : List T)

namespace T

def ref : T → Child
  | mk r _ _ => r

def keys : T → List Nat
  | mk _ ks _ => ks

def kids : T → List T
  | mk _ _ ts => ts

/-- The node a tree's top is stored as. -/
def node (t : T) : Node := ⟨t.keys, t.kids.map T.ref⟩

theorem ind {P : T → Prop} (h : ∀ r ks ts, (∀ t ∈ ts, P t) → P (mk r ks ts)) : ∀ t, P t
  | mk r ks ts => h r ks ts fun t _ => ind h t

end T

mutual
/-- The keys of a tree in order. -/
def T.flat : T → List Nat
  | .mk _ ks ts => flatL ks ts
def flatL : List Nat → List T → List Nat
  | ks, [] => ks
  | [], t :: ts => t.flat ++ flatL [] ts
  | k :: ks, t :: ts => t.flat ++ k :: flatL ks ts
end

mutual
/-- The references of all the nodes of a tree. -/
def T.refs : T → List Child
  | .mk r _ ts => r :: refsL ts
def refsL : List T → List Child
  | [] => []
  | t :: ts => t.refs ++ refsL ts
end

theorem refsL_append (a b : List T) : refsL (a ++ b) = refsL a ++ refsL b := by
  induction a with
  | nil => simp [refsL]
  | cons t ts ih => simp [refsL, ih]

theorem mem_refsL {r : Child} {ts : List T} : r ∈ refsL ts ↔ ∃ t ∈ ts, r ∈ t.refs := by
  induction ts with
  | nil => simp [refsL]
  | cons t ts ih => simp [refsL, ih]

theorem T.ref_mem_refs (t : T) : t.ref ∈ t.refs := by
  cases t; simp [T.refs, T.ref]

/-- `N` stores the tree. -/
inductive Rep (N : Child → Option Node) : T → Prop where
  | mk {r : Child} {ks : List Nat} {ts : List T} : N r = some ⟨ks, ts.map T.ref⟩ →
      (∀ t ∈ ts, Rep N t) → Rep N (.mk r ks ts)

theorem Rep.node {N : Child → Option Node} {t : T} (h : Rep N t) : N t.ref = some t.node := by
  cases h with
  | mk h _ => exact h

theorem Rep.kids {N : Child → Option Node} {t : T} (h : Rep N t) : ∀ t' ∈ t.kids, Rep N t' := by
  cases h with
  | mk _ h => exact h

theorem Rep.mono {N N' : Child → Option Node} {t : T} (h : Rep N t)
    (hN : ∀ r ∈ t.refs, ∀ n, N r = some n → N' r = some n) : Rep N' t := by
  induction h with
  | @mk r ks ts h _ ih =>
    refine .mk (hN _ (by simp [T.refs]) _ h) fun t ht => ih t ht fun r hr n hn => hN r ?_ n hn
    simp only [T.refs, List.mem_cons]
    exact .inr (mem_refsL.mpr ⟨t, ht, hr⟩)

theorem Rep.refs_some {N : Child → Option Node} {t : T} (h : Rep N t) :
    ∀ r ∈ t.refs, ∃ n, N r = some n := by
  induction h with
  | @mk r ks ts h _ ih =>
    intro r' hr'
    simp only [T.refs, List.mem_cons] at hr'
    rcases hr' with e | hr'
    · subst e; exact ⟨_, h⟩
    · obtain ⟨t, ht, hr⟩ := mem_refsL.mp hr'
      exact ih t ht r' hr

/-- All leaves at depth `h`, and one more child than keys above them. -/
def Shape : Nat → T → Prop
  | 0, .mk _ _ ts => ts = []
  | h + 1, .mk _ ks ts => ts.length = ks.length + 1 ∧ ∀ t ∈ ts, Shape h t

/-- Block numbers in strictly increasing order of their keys. -/
def Srt (core : List Bytes) (l : List Nat) : Prop :=
  l.Pairwise fun x y => keyOf core x < keyOf core y

/-- The keys and subtrees before a child, flattened. -/
def preF : List Nat → List T → List Nat
  | k :: ka, t :: A => t.flat ++ k :: preF ka A
  | _, _ => []

/-- The keys and subtrees after a child, flattened. -/
def postF : List Nat → List T → List Nat
  | k :: kb, t :: B => k :: t.flat ++ postF kb B
  | _, _ => []

theorem flatL_nil (ks : List Nat) : flatL ks [] = ks := by
  cases ks <;> simp [flatL]

theorem flatL_pre {ka : List Nat} : ∀ {A : List T}, A.length = ka.length → ∀ (kb : List Nat) (ts : List T),
    flatL (ka ++ kb) (A ++ ts) = preF ka A ++ flatL kb ts := by
  induction ka with
  | nil => intro A h kb ts; simp at h; subst h; simp [preF]
  | cons k ka ih =>
    intro A h kb ts
    cases A with
    | nil => simp at h
    | cons t A => simp at h; simp [flatL, preF, ih h]

theorem flatL_post {kb : List Nat} : ∀ {B : List T}, B.length = kb.length → ∀ (t : T),
    flatL kb (t :: B) = t.flat ++ postF kb B := by
  induction kb with
  | nil => intro B h t; simp at h; subst h; simp [flatL, postF]
  | cons k kb ih =>
    intro B h t
    cases B with
    | nil => simp at h
    | cons t' B =>
      simp at h
      rw [flatL, ih h]
      · simp [postF]

theorem flatL_hole {ka kb : List Nat} {A B : List T} (hA : A.length = ka.length)
    (hB : B.length = kb.length) (t : T) :
    flatL (ka ++ kb) (A ++ t :: B) = preF ka A ++ t.flat ++ postF kb B := by
  rw [flatL_pre hA, flatL_post hB]; simp

theorem preF_append {ka : List Nat} : ∀ {A : List T}, A.length = ka.length →
    ∀ (ka' : List Nat) (A' : List T), preF (ka ++ ka') (A ++ A') = preF ka A ++ preF ka' A' := by
  induction ka with
  | nil => intro A h ka' A'; simp at h; subst h; simp [preF]
  | cons k ka ih =>
    intro A h ka' A'
    cases A with
    | nil => simp at h
    | cons t A => simp at h; simp [preF, ih h]

theorem postF_append {ka : List Nat} : ∀ {A : List T}, A.length = ka.length →
    ∀ (ka' : List Nat) (A' : List T), postF (ka ++ ka') (A ++ A') = postF ka A ++ postF ka' A' := by
  induction ka with
  | nil => intro A h ka' A'; simp at h; subst h; simp [postF]
  | cons k ka ih =>
    intro A h ka' A'
    cases A with
    | nil => simp at h
    | cons t A => simp at h; simp [postF, ih h]

theorem keys_sublist (ks : List Nat) : ∀ ts, ks.Sublist (flatL ks ts) := by
  intro ts
  induction ts generalizing ks with
  | nil => rw [flatL_nil]; exact List.Sublist.refl _
  | cons t ts ih =>
    cases ks with
    | nil => exact List.nil_sublist _
    | cons k ks =>
      rw [flatL]
      exact ((ih ks).cons_cons k).trans (List.sublist_append_right _ _)

theorem preF_keys_sublist {ka : List Nat} : ∀ {A : List T}, A.length = ka.length →
    ka.Sublist (preF ka A) := by
  induction ka with
  | nil => intro A _; exact List.nil_sublist _
  | cons k ka ih =>
    intro A h
    cases A with
    | nil => simp at h
    | cons t A =>
      simp at h
      rw [preF]
      exact ((ih h).cons_cons k).trans (List.sublist_append_right _ _)

theorem postF_keys_sublist {kb : List Nat} : ∀ {B : List T}, B.length = kb.length →
    kb.Sublist (postF kb B) := by
  induction kb with
  | nil => intro A _; exact List.nil_sublist _
  | cons k ka ih =>
    intro A h
    cases A with
    | nil => simp at h
    | cons t A =>
      simp at h
      rw [postF]
      exact ((ih h).trans (List.sublist_append_right _ _)).cons_cons k

theorem pre_gt {core : List Bytes} {key : LimitValue} {ka : List Nat} : ∀ {A : List T},
    Srt core (preF ka A) → (∀ k ∈ ka, key.cmp (keyOf core k) = .gt) →
    ∀ x ∈ preF ka A, key.cmp (keyOf core x) = .gt := by
  induction ka with
  | nil => intro A _ _ x hx; simp [preF] at hx
  | cons k ka ih =>
    intro A hs hk x hx
    cases A with
    | nil => simp [preF] at hx
    | cons t A =>
      simp only [preF, Srt] at hs
      rw [List.pairwise_append] at hs
      obtain ⟨_, h2, h3⟩ := hs
      rw [preF, List.mem_append, List.mem_cons] at hx
      rcases hx with hx | hx | hx
      · exact LimitValue.cmp_gt_trans (hk k (by simp)) (h3 x hx k (by simp))
      · subst hx; exact hk x (by simp)
      · exact ih (List.Pairwise.of_cons h2) (fun k' hk' => hk k' (by simp [hk'])) x hx

theorem post_lt {core : List Bytes} {key : LimitValue} {kb : List Nat} : ∀ {B : List T},
    Srt core (postF kb B) → (∀ k ∈ kb, key.cmp (keyOf core k) = .lt) →
    ∀ x ∈ postF kb B, key.cmp (keyOf core x) = .lt := by
  induction kb with
  | nil => intro A _ _ x hx; simp [postF] at hx
  | cons k ka ih =>
    intro A hs hk x hx
    cases A with
    | nil => simp [postF] at hx
    | cons t A =>
      simp only [postF, Srt, List.cons_append] at hs
      rw [List.pairwise_cons, List.pairwise_append] at hs
      obtain ⟨h1, _, h3, _⟩ := hs
      rw [postF, List.cons_append, List.mem_cons, List.mem_append] at hx
      rcases hx with hx | hx | hx
      · subst hx; exact hk x (by simp)
      · exact LimitValue.cmp_lt_trans (hk k (by simp)) (h1 x (by simp [hx]))
      · exact ih h3 (fun k' hk' => hk k' (by simp [hk'])) x hx

/-! ## Zippers -/

/-- One step of a path from the root: the node's address and reference, and its keys and subtrees
before and after the child taken. -/
structure Fr where
  a : Nat
  ref : Child
  ka : List Nat
  kb : List Nat
  A : List T
  B : List T

def Fr.OK (f : Fr) : Prop := f.A.length = f.ka.length ∧ f.B.length = f.kb.length

/-- The entry of the code's path for this step. -/
def Fr.step (f : Fr) : Nat × Nat := (f.a, f.ka.length)

/-- Put a subtree into the hole of a context (deepest step first). -/
def plug : List Fr → T → T
  | [], t => t
  | f :: fs, t => plug fs (.mk f.ref (f.ka ++ f.kb) (f.A ++ t :: f.B))

def preC : List Fr → List Nat
  | [] => []
  | f :: fs => preC fs ++ preF f.ka f.A

def postC : List Fr → List Nat
  | [] => []
  | f :: fs => postF f.kb f.B ++ postC fs

theorem plug_append (fs gs : List Fr) (t : T) : plug (fs ++ gs) t = plug gs (plug fs t) := by
  induction fs generalizing t with
  | nil => rfl
  | cons f fs ih => exact ih _

theorem preC_append (fs gs : List Fr) : preC (fs ++ gs) = preC gs ++ preC fs := by
  induction fs with
  | nil => simp [preC]
  | cons f fs ih => simp [preC, ih]

theorem postC_append (fs gs : List Fr) : postC (fs ++ gs) = postC fs ++ postC gs := by
  induction fs with
  | nil => simp [postC]
  | cons f fs ih => simp [postC, ih]

theorem flat_plug {fs : List Fr} (h : ∀ f ∈ fs, f.OK) (t : T) :
    (plug fs t).flat = preC fs ++ t.flat ++ postC fs := by
  induction fs generalizing t with
  | nil => simp [plug, preC, postC]
  | cons f fs ih =>
    have hf := h f (by simp)
    rw [plug, ih (fun f hf => h f (by simp [hf])), T.flat, flatL_hole hf.1 hf.2]
    simp [preC, postC]

/-! ## The search within a node -/

/-- What `get_index_of_key` returns on a node with keys `ks`. -/
def SearchPost (core : List Bytes) (key : LimitValue) (ks : List Nat) (res : Option Nat × Nat) : Prop :=
  match res.1 with
  | some q => ks[res.2]? = some q ∧ key.cmp (keyOf core q) = .eq
  | none => res.2 ≤ ks.length ∧ (∀ k ∈ ks.take res.2, key.cmp (keyOf core k) = .gt) ∧
      (∀ k ∈ ks.drop res.2, key.cmp (keyOf core k) = .lt)

theorem Ordering.cases_ne {o : Ordering} (h1 : o ≠ .eq) (h2 : o ≠ .lt) : o = .gt := by
  cases o <;> simp_all

theorem searchLoop_run {core : List Bytes} {a : Nat} {n : Node} (key : LimitValue)
    (hs : Srt core n.keys) (hd : ∀ q ∈ n.keys, ∃ b, blockAt core q = some b) :
    ∀ fuel low high (s : St), SWF s → s.core = core → s.heap[a]? = some n →
      low ≤ high + 1 → high < n.keys.length → high + 1 - low < fuel →
      (∀ k ∈ n.keys.take low, key.cmp (keyOf core k) = .gt) →
      (∀ k ∈ n.keys.drop (high + 1), key.cmp (keyOf core k) = .lt) →
      ∃ res s', searchLoop a key fuel low high s = (.ok res, s') ∧ Ext s s' ∧
        SearchPost core key n.keys res := by
  intro fuel
  induction fuel with
  | zero => intro low high s _ _ _ _ _ hf; omega
  | succ fuel ih =>
    intro low high s hw hcore hn hlh hhl hf hlo hhi
    unfold searchLoop
    by_cases hle : low ≤ high
    · rw [if_pos hle]
      have hmid : low + ((high - low) >>> 1) = low + (high - low) / 2 := by
        simp [Nat.shiftRight_succ]
      simp only [hmid]
      generalize hm : low + (high - low) / 2 = mid
      have hmlt : mid < n.keys.length := by omega
      have hq : n.keys[mid]? = some n.keys[mid] := List.getElem?_eq_getElem hmlt
      generalize hqq : n.keys[mid] = q at hq
      obtain ⟨b, hb⟩ := hd q (List.mem_of_getElem? hq)
      obtain ⟨s1, h1, e1⟩ := getKeyValue_run hw hn hq (b := b) (by rw [hcore]; exact hb)
      rw [bind_ok h1]
      simp only [hcore]
      have hpw := List.pairwise_iff_getElem.mp hs
      by_cases heq : key.eqBytes (keyOf core q) = true
      · rw [if_pos heq]
        exact ⟨_, s1, rfl, e1, hq, (LimitValue.eqBytes_iff _ _).mp heq⟩
      · rw [if_neg heq]
        have hne : key.cmp (keyOf core q) ≠ .eq := fun h => heq ((LimitValue.eqBytes_iff _ _).mpr h)
        by_cases hlt : key.cmp (keyOf core q) = .lt
        · rw [if_pos hlt]
          have hdrop : ∀ k ∈ n.keys.drop mid, key.cmp (keyOf core k) = .lt := by
            intro k hk
            obtain ⟨j, hj, rfl⟩ := List.mem_iff_getElem.mp hk
            simp only [List.length_drop] at hj
            rw [List.getElem_drop]
            by_cases h0 : j = 0
            · subst h0; simp only [Nat.add_zero]; rw [hqq]; exact hlt
            · have := hpw mid (mid + j) hmlt (by omega) (by omega)
              rw [hqq] at this
              exact LimitValue.cmp_lt_trans hlt this
          by_cases h0 : mid = 0
          · rw [if_pos h0]
            have hl0 : low = 0 := by omega
            subst hl0
            refine ⟨_, s1, rfl, e1, ?_⟩
            simp only [SearchPost]
            subst h0
            exact ⟨by omega, by simp, by simpa using hdrop⟩
          · rw [if_neg h0]
            obtain ⟨res, s2, h2, e2, hp⟩ := ih low (mid - 1) s1 e1.wf (by rw [e1.core, hcore])
              (e1.get hn) (by omega) (by omega) (by omega) hlo
              (by rw [show mid - 1 + 1 = mid by omega]; exact hdrop)
            exact ⟨res, s2, h2, e1.trans e2, hp⟩
        · rw [if_neg hlt]
          have hgt : key.cmp (keyOf core q) = .gt := Ordering.cases_ne hne hlt
          have htake : ∀ k ∈ n.keys.take (mid + 1), key.cmp (keyOf core k) = .gt := by
            intro k hk
            obtain ⟨j, hj, rfl⟩ := List.mem_iff_getElem.mp hk
            simp only [List.length_take] at hj
            rw [List.getElem_take]
            by_cases h0 : j = mid
            · subst h0; rw [hqq]; exact hgt
            · have := hpw j mid (by omega) hmlt (by omega)
              rw [hqq] at this
              exact LimitValue.cmp_gt_trans hgt this
          obtain ⟨res, s2, h2, e2, hp⟩ := ih (mid + 1) high s1 e1.wf (by rw [e1.core, hcore])
            (e1.get hn) (by omega) (by omega) (by omega) htake hhi
          exact ⟨res, s2, h2, e1.trans e2, hp⟩
    · rw [if_neg hle]
      have : low = high + 1 := by omega
      refine ⟨_, s, rfl, Ext.refl hw, ?_⟩
      simp only [SearchPost]
      refine ⟨by omega, hlo, ?_⟩
      rw [this]; exact hhi

theorem getIndexOfKey_run {s : St} (hw : SWF s) {a : Nat} {n : Node} (hn : s.heap[a]? = some n)
    (key : LimitValue) (hs : Srt s.core n.keys) (hd : ∀ q ∈ n.keys, ∃ b, blockAt s.core q = some b) :
    ∃ res s', getIndexOfKey a key s = (.ok res, s') ∧ Ext s s' ∧ SearchPost s.core key n.keys res := by
  unfold getIndexOfKey
  rw [bind_ok (readNode_some hn)]
  by_cases h0 : n.keys.length = 0
  · rw [if_pos h0]
    refine ⟨_, s, rfl, Ext.refl hw, ?_⟩
    have : n.keys = [] := List.eq_nil_of_length_eq_zero h0
    simp [SearchPost, this]
  · rw [if_neg h0]
    exact searchLoop_run key hs hd _ 0 (n.keys.length - 1) s hw rfl hn (by omega) (by omega)
      (by omega) (by simp) (by
        rw [show n.keys.length - 1 + 1 = n.keys.length by omega]; simp)

/-! ## The descent -/

theorem isLeaf_run {s : St} {a : Nat} {n : Node} (hn : s.heap[a]? = some n) :
    isLeaf a s = (.ok (n.children.length == 0), s) := by
  unfold isLeaf
  rw [bind_ok (readNode_some hn)]
  rfl

/-- What `nearest_node` finds: a node `n` of the tree, at address `a`, reached through `fs`, and the
index `i` of the key in it or of the place where it would go. -/
structure Found (s : St) (key : LimitValue) (t : T) (m : Option Nat) (a i : Nat) (fs : List Fr)
    (n : T) : Prop where
  plug : plug fs n = t
  frs : ∀ f ∈ fs, f.OK ∧ addrOf s f.ref = some f.a
  addr : addrOf s n.ref = some a
  le : i ≤ n.keys.length
  hit : ∀ q, m = some q → n.keys[i]? = some q ∧ key.cmp (keyOf s.core q) = .eq
  miss : m = none → n.kids = [] ∧
    (∀ x ∈ preC fs ++ n.keys.take i, key.cmp (keyOf s.core x) = .gt) ∧
    (∀ x ∈ n.keys.drop i ++ postC fs, key.cmp (keyOf s.core x) = .lt)

theorem nearestLoop_run (key : LimitValue) : ∀ (h fuel : Nat) (t : T) (s : St) (a : Nat)
    (path : NodePath), h < fuel → SWF s → Rep (nodeAt s.core) t → Coh s (· ∈ t.refs) → Shape h t →
    Srt s.core t.flat → (∀ q ∈ t.flat, ∃ b, blockAt s.core q = some b) → addrOf s t.ref = some a →
    ∃ m a' i fs n s', nearestLoop key fuel a path s
        = (.ok (m, (a', i) :: (fs.map Fr.step ++ path)), s') ∧ Ext s s' ∧
      Found s' key t m a' i fs n := by
  intro h
  induction h with
  | zero =>
    intro fuel t s a path hf hw hrep hcoh hsh hsrt hdef haddr
    obtain ⟨fuel, rfl⟩ : ∃ f, fuel = f + 1 := ⟨fuel - 1, by omega⟩
    obtain ⟨r, ks, ts⟩ := t
    simp only [Shape] at hsh
    subst hsh
    have hn : s.heap[a]? = some ⟨ks, []⟩ := by
      rw [hcoh r (by simp [T.refs]) a haddr]; exact hrep.node
    rw [T.flat, flatL_nil] at hsrt hdef
    obtain ⟨⟨m, i⟩, s1, h1, e1, hp⟩ := getIndexOfKey_run hw hn key hsrt hdef
    unfold nearestLoop
    rw [bind_ok h1]
    simp only []
    rw [bind_ok (isLeaf_run (e1.get hn))]
    simp only [List.length_nil, beq_self_eq_true, Bool.or_true, if_true]
    refine ⟨m, a, i, [], .mk r ks [], s1, rfl, e1, rfl, by simp, e1.addr haddr, ?_, ?_, ?_⟩
    · cases m with
      | none => exact hp.1
      | some q => exact Nat.le_of_lt (List.getElem?_eq_some_iff.mp hp.1).1
    · intro q hq; subst hq
      rw [e1.core]; exact hp
    · intro hq; subst hq
      rw [e1.core]
      exact ⟨rfl, by simpa [preC, T.keys] using hp.2.1, by simpa [postC, T.keys] using hp.2.2⟩
  | succ h ih =>
    intro fuel t s a path hf hw hrep hcoh hsh hsrt hdef haddr
    obtain ⟨fuel, rfl⟩ : ∃ f, fuel = f + 1 := ⟨fuel - 1, by omega⟩
    obtain ⟨r, ks, ts⟩ := t
    simp only [Shape] at hsh
    obtain ⟨hlen, hkids⟩ := hsh
    have hn : s.heap[a]? = some ⟨ks, ts.map T.ref⟩ := by
      rw [hcoh r (by simp [T.refs]) a haddr]; exact hrep.node
    rw [T.flat] at hsrt hdef
    have hks := keys_sublist ks ts
    obtain ⟨⟨m, i⟩, s1, h1, e1, hp⟩ := getIndexOfKey_run hw hn key
      (List.Pairwise.sublist hks hsrt) (fun q hq => hdef q (hks.subset hq))
    unfold nearestLoop
    rw [bind_ok h1]
    simp only []
    rw [bind_ok (isLeaf_run (e1.get hn))]
    have hleaf : ((ts.map T.ref).length == 0) = false := by simp; intro h; simp [h] at hlen
    rw [hleaf]
    cases m with
    | some q =>
      simp only [Option.isSome_some, Bool.true_or, if_true]
      refine ⟨some q, a, i, [], .mk r ks ts, s1, rfl, e1, rfl, by simp, e1.addr haddr, ?_, ?_, ?_⟩
      · exact Nat.le_of_lt (List.getElem?_eq_some_iff.mp hp.1).1
      · intro q' hq; cases hq; rw [e1.core]; exact hp
      · intro hq; cases hq
    | none =>
      simp only [SearchPost] at hp
      obtain ⟨hile, hgt, hlt⟩ := hp
      simp only [Option.isSome_none, Bool.or_false, Bool.false_eq_true, if_false]
      have hile : i ≤ ks.length := hile
      have hits : i < ts.length := by omega
      -- split the node at the child taken
      have hksplit : ks = ks.take i ++ ks.drop i := (List.take_append_drop i ks).symm
      have htsplit : ts = ts.take i ++ ts[i] :: ts.drop (i + 1) := by
        rw [List.getElem_cons_drop, List.take_append_drop]
      have hA : (ts.take i).length = (ks.take i).length := by simp; omega
      have hB : (ts.drop (i + 1)).length = (ks.drop i).length := by simp; omega
      have hflat : flatL ks ts = preF (ks.take i) (ts.take i) ++ (ts[i]).flat
          ++ postF (ks.drop i) (ts.drop (i + 1)) := by
        conv => lhs; rw [hksplit, htsplit]
        exact flatL_hole hA hB _
      have hmem : ts[i] ∈ ts := List.getElem_mem hits
      have hrepc := hrep.kids _ hmem
      obtain ⟨m, hm⟩ := hrepc.refs_some _ (T.ref_mem_refs _)
      obtain ⟨a2, s2, h2, e2, ha2⟩ := getChild_run e1.wf (e1.get hn) (i := i) (r := (ts[i]).ref)
        (by simp [List.getElem?_eq_getElem hits]) (m := m) (by rw [e1.core]; exact hm)
      rw [bind_ok h2]
      have e12 := e1.trans e2
      rw [hflat] at hsrt hdef
      have hs1 := List.pairwise_append.mp hsrt
      have hs2 := List.pairwise_append.mp hs1.1
      have hcoh2 : Coh s2 (· ∈ (ts[i]).refs) :=
        (e12.coh hw hcoh).mono fun r' hr' => by
          simp only [T.refs, List.mem_cons]
          exact .inr (mem_refsL.mpr ⟨_, hmem, hr'⟩)
      obtain ⟨m', a', i', fs, n, s', h3, e3, hf3⟩ := ih fuel ts[i] s2 a2 ((a, i) :: path) (by omega)
        e2.wf (by rw [e12.core]; exact hrepc) hcoh2 (hkids _ hmem)
        (by rw [e12.core]; exact hs2.2.1)
        (by rw [e12.core]; exact fun q hq => hdef q (by simp [hq])) ha2
      let f : Fr := ⟨a, r, ks.take i, ks.drop i, ts.take i, ts.drop (i + 1)⟩
      have hstep : f.step = (a, i) := by
        simp only [Fr.step, f, List.length_take, Nat.min_eq_left hile]
      refine ⟨m', a', i', fs ++ [f], n, s', ?_, e12.trans e3, ?_, ?_, hf3.addr, hf3.le, ?_, ?_⟩
      · rw [h3]
        simp [hstep]
      · rw [plug_append, hf3.plug]
        simp only [plug, f]
        rw [← hksplit, ← htsplit]
      · intro g hg
        rw [List.mem_append, List.mem_singleton] at hg
        rcases hg with hg | hg
        · exact hf3.frs g hg
        · subst hg
          exact ⟨⟨hA, hB⟩, (e12.trans e3).addr haddr⟩
      · intro q hq
        exact hf3.hit q hq
      · intro hq
        obtain ⟨h4, h5, h6⟩ := hf3.miss hq
        have hc : s'.core = s.core := (e12.trans e3).core
        refine ⟨h4, ?_, ?_⟩
        · intro x hx
          rw [preC_append] at hx
          simp only [preC, List.nil_append, List.append_assoc, List.mem_append] at hx
          rcases hx with hx | hx
          · rw [hc]
            exact pre_gt hs2.1 hgt x hx
          · exact h5 x (by simpa using hx)
        · intro x hx
          rw [postC_append, ← List.append_assoc] at hx
          simp only [postC, List.append_nil] at hx
          rw [List.mem_append] at hx
          rcases hx with hx | hx
          · exact h6 x hx
          · rw [hc]
            exact post_lt hs1.2.1 hlt x hx

end Hyperbee
