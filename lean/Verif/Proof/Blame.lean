import Mathlib.Data.List.Perm.Subperm
import Verif.Proof.Clean
import Verif.Proof.STree
import Verif.SpecDefect
import Verif.Model.Debug
/-!
# Reading an arbitrary core

Whatever the blocks hold, a lookup ends in a result, an error, or one of four failures each caused
by a particular defect of the core.
-/

namespace Hyperbee

/-! ## A node takes at least one byte -/

theorem decodeVarint_le : ∀ {bs : Bytes} {n : Nat} {r : Bytes}, decodeVarint bs = some (n, r) → r.length ≤ bs.length := by
  intro bs
  induction bs with
  | nil => intro n r h; simp [decodeVarint] at h
  | cons b bs ih =>
    intro n r h
    unfold decodeVarint at h
    split at h
    · simp only [Option.some.injEq, Prod.mk.injEq] at h
      rw [← h.2]; simp
    · cases h1 : decodeVarint bs with
      | none => simp [h1] at h
      | some p =>
        obtain ⟨n', r'⟩ := p
        simp only [h1, Option.some.injEq, Prod.mk.injEq] at h
        have := ih h1
        rw [← h.2]; simp; omega

theorem takeBytes_le {n : Nat} {bs b r : Bytes} (h : takeBytes n bs = some (b, r)) :
    b.length ≤ bs.length ∧ r.length ≤ bs.length := by
  unfold takeBytes at h
  split at h
  · simp only [Option.some.injEq, Prod.mk.injEq] at h
    rw [← h.1, ← h.2]
    simp only [List.length_take, List.length_drop]
    omega
  · cases h

theorem decodePayload_le {w : Nat} {bs r : Bytes} {f : Field} (h : decodePayload w bs = some (f, r)) :
    r.length ≤ bs.length ∧ ∀ b, f = .len b → b.length ≤ bs.length := by
  unfold decodePayload at h
  split at h
  · cases h1 : decodeVarint bs with
    | none => simp [h1] at h
    | some p =>
      simp only [h1, Option.map_some, Option.some.injEq, Prod.mk.injEq] at h
      refine ⟨?_, fun b hb => by rw [← h.1] at hb; cases hb⟩
      rw [← h.2]; exact decodeVarint_le h1
  · cases h1 : takeBytes 8 bs with
    | none => simp [h1] at h
    | some p =>
      simp only [h1, Option.map_some, Option.some.injEq, Prod.mk.injEq] at h
      refine ⟨?_, fun b hb => by rw [← h.1] at hb; cases hb⟩
      rw [← h.2]; exact (takeBytes_le h1).2
  · cases h1 : decodeVarint bs with
    | none => simp [h1] at h
    | some p =>
      obtain ⟨n, r1⟩ := p
      simp only [h1] at h
      cases h2 : takeBytes n r1 with
      | none => simp [h2] at h
      | some p =>
        simp only [h2, Option.map_some, Option.some.injEq, Prod.mk.injEq] at h
        have hr1 := decodeVarint_le h1
        have ⟨x, y⟩ := takeBytes_le h2
        refine ⟨by rw [← h.2]; omega, fun b hb => ?_⟩
        rw [← h.1] at hb
        cases hb
        omega
  · cases h1 : takeBytes 4 bs with
    | none => simp [h1] at h
    | some p =>
      simp only [h1, Option.map_some, Option.some.injEq, Prod.mk.injEq] at h
      refine ⟨?_, fun b hb => by rw [← h.1] at hb; cases hb⟩
      rw [← h.2]; exact (takeBytes_le h1).2
  · cases h

theorem skipGroupF_le : ∀ {fuel : Nat} {st : List Nat} {bs r : Bytes}, skipGroupF fuel st bs = some r → r.length ≤ bs.length := by
  intro fuel
  induction fuel with
  | zero =>
    intro st bs r h
    cases st with
    | nil => cases h; exact Nat.le_refl _
    | cons t st => cases h
  | succ fuel ih =>
    intro st bs r h
    cases st with
    | nil => cases h; exact Nat.le_refl _
    | cons t st =>
      unfold skipGroupF at h
      split at h
      · cases h
      · rename_i key r1 hv
        have h1 := decodeVarint_le hv
        split at h
        · cases h
        · split at h
          · split at h
            · have := ih h; omega
            · cases h
          · split at h
            · have := ih h; omega
            · split at h
              · cases h
              · rename_i r2 hp
                have h2 := (decodePayload_le hp).1
                have := ih h
                omega

theorem decodeField_le {t w : Nat} {bs r : Bytes} {f : Field} (h : decodeField t w bs = some (f, r)) :
    r.length ≤ bs.length ∧ ∀ b, f = .len b → b.length ≤ bs.length := by
  unfold decodeField at h
  split at h
  · obtain ⟨r', h1, h2⟩ := Option.map_eq_some_iff.mp h
    cases h2
    exact ⟨skipGroupF_le h1, fun b hb => by cases hb⟩
  · exact decodePayload_le h

theorem decodeFieldsF_le : ∀ {fuel : Nat} {bs : Bytes} {fs : List (Nat × Field)}, decodeFieldsF fuel bs = some fs →
    fs.length ≤ fuel ∧ ∀ t b, (t, Field.len b) ∈ fs → b.length ≤ bs.length := by
  intro fuel
  induction fuel with
  | zero =>
    intro bs fs h
    cases bs with
    | nil => simp [decodeFieldsF] at h; subst h; simp
    | cons b bs => simp [decodeFieldsF] at h
  | succ fuel ih =>
    intro bs fs h
    cases bs with
    | nil => simp [decodeFieldsF] at h; subst h; simp
    | cons b bs =>
      unfold decodeFieldsF at h
      cases h1 : decodeVarint (b :: bs) with
      | none => simp [h1] at h
      | some p =>
        obtain ⟨key, r⟩ := p
        simp only [h1] at h
        split at h
        · cases h
        · cases h2 : decodeField (key / 8) (key % 8) r with
          | none => simp [h2] at h
          | some p =>
            obtain ⟨f, r2⟩ := p
            simp only [h2] at h
            cases h3 : decodeFieldsF fuel r2 with
            | none => simp [h3] at h
            | some fs' =>
              simp only [h3, Option.some.injEq] at h
              subst h
              obtain ⟨i1, i2⟩ := ih h3
              have hr := decodeVarint_le h1
              obtain ⟨hr2, hf⟩ := decodeField_le h2
              refine ⟨by simp; omega, fun t b' hb => ?_⟩
              rcases List.mem_cons.mp hb with hb | hb
              · have := hf b' (by cases hb; rfl)
                omega
              · have := i2 t b' hb
                omega

theorem mergeNode_index : ∀ {fs : List (Nat × Field)} {m x : NodeSchema} {n : Nat}, mergeNode fs m = some x →
    m.index.length ≤ n → (∀ t b, (t, Field.len b) ∈ fs → b.length ≤ n) → x.index.length ≤ n := by
  intro fs
  induction fs with
  | nil => intro m x n h hm _; simp [mergeNode] at h; subst h; exact hm
  | cons p fs ih =>
    intro m x n h hm hfs
    obtain ⟨t, f⟩ := p
    have hfs' : ∀ t b, (t, Field.len b) ∈ fs → b.length ≤ n := fun t b hb => hfs t b (List.mem_cons_of_mem _ hb)
    unfold mergeNode at h
    split at h
    · cases f with
      | len b => exact ih h (hfs t b (by simp)) hfs'
      | _ => cases h
    · split at h
      · cases f with
        | len b => exact ih h hm hfs'
        | _ => cases h
      · split at h
        · cases f with
          | len b => exact ih h hm hfs'
          | _ => cases h
        · exact ih h hm hfs'

theorem mergeYolo_length : ∀ {fs : List (Nat × Field)} {ls x : List Level}, mergeYolo fs ls = some x →
    x.length ≤ ls.length + fs.length := by
  intro fs
  induction fs with
  | nil => intro ls x h; simp [mergeYolo] at h; subst h; simp
  | cons p fs ih =>
    intro ls x h
    obtain ⟨t, f⟩ := p
    unfold mergeYolo at h
    split at h
    · cases f with
      | len b =>
        simp only at h
        cases hl : decodeLevel b with
        | none => simp [hl] at h
        | some l =>
          simp only [hl] at h
          have := ih h
          simp at this ⊢
          omega
      | _ => cases h
    · have := ih h
      simp
      omega

theorem nodeCount_le (b : Bytes) : nodeCount b ≤ b.length := by
  unfold nodeCount
  cases h1 : decodeNode b with
  | none => simp
  | some m =>
    simp only
    cases h2 : decodeYolo m.index with
    | none => simp
    | some ls =>
      simp only
      unfold decodeNode at h1
      cases h3 : decodeFields b with
      | none => simp [h3] at h1
      | some fs =>
        simp only [h3] at h1
        have hm := mergeNode_index h1 (by simp) (decodeFieldsF_le h3).2
        unfold decodeYolo at h2
        cases h4 : decodeFields m.index with
        | none => simp [h4] at h2
        | some gs =>
          simp only [h4] at h2
          have := mergeYolo_length h2
          have := (decodeFieldsF_le h4).1
          simp at *
          omega

/-! ## Fewer nodes than rounds -/

/-- Every node of the core. -/
def allNodes : Nat → List Bytes → List (Nat × Nat)
  | _, [] => []
  | q, b :: bs => (List.range (nodeCount b)).map (fun i => (q, i)) ++ allNodes (q + 1) bs

theorem length_allNodes : ∀ (q : Nat) (c : List Bytes), (allNodes q c).length = (c.map nodeCount).sum := by
  intro q c
  induction c generalizing q with
  | nil => rfl
  | cons b bs ih => simp [allNodes, ih]

theorem mem_allNodes : ∀ {q0 : Nat} {c : List Bytes} {q i : Nat} {b : Bytes}, c[q]? = some b → i < nodeCount b →
    (q0 + q, i) ∈ allNodes q0 c := by
  intro q0 c
  induction c generalizing q0 with
  | nil => intro q i b h; simp at h
  | cons x xs ih =>
    intro q i b h hi
    unfold allNodes
    rw [List.mem_append]
    cases q with
    | zero =>
      simp only [List.getElem?_cons_zero, Option.some.injEq] at h
      subst h
      left
      simp [hi]
    | succ q =>
      right
      have := ih (q0 := q0 + 1) (by simpa using h) hi
      rwa [show q0 + (q + 1) = q0 + 1 + q by omega]

theorem nodeCount_sum_lt (c : List Bytes) : (c.map nodeCount).sum < stepBound c := by
  unfold stepBound
  cases c with
  | nil => simp
  | cons b bs =>
    have h : ∀ l : List Bytes, (l.map nodeCount).sum ≤ (l.map List.length).sum := by
      intro l
      induction l with
      | nil => simp
      | cons x xs ih => have := nodeCount_le x; simp; omega
    have := h bs
    simp
    omega

theorem wireBlock_count {c : List Bytes} {q : Nat} {m : NodeSchema} {ls : List Level} (h : wireBlock c q = some (m, ls)) :
    ∃ b, c[q]? = some b ∧ nodeCount b = ls.length := by
  unfold wireBlock at h
  cases h1 : c[q]? with
  | none => simp [h1] at h
  | some b =>
    refine ⟨b, rfl, ?_⟩
    simp only [h1] at h
    unfold nodeCount
    cases h2 : decodeNode b with
    | none => simp [h2] at h
    | some m' =>
      simp only [h2] at h ⊢
      cases h3 : decodeYolo m'.index with
      | none => simp [h3] at h
      | some ls' => simp only [h3, Option.some.injEq, Prod.mk.injEq] at h ⊢; rw [h.2]

/-- A longer path than there are nodes goes round in a circle. -/
theorem cycle_of_long {c : List Bytes} {xs : List (Nat × Nat)}
    (hp : xs.Pairwise fun a b => Relation.TransGen (RefersTo c) b a) (hs : ∀ x ∈ xs, x ∈ allNodes 0 c)
    (hl : stepBound c ≤ xs.length) : CyclicRefs c := by
  by_contra hn
  have hnd : xs.Nodup := by
    refine hp.imp ?_
    intro a b h e
    subst e
    exact hn ⟨_, h⟩
  have := (List.subperm_of_subset hnd hs).length_le
  rw [length_allNodes] at this
  have := nodeCount_sum_lt c
  omega

/-! ## The outcome of a computation that reads -/

/-- `s'` is `s` after blocks have been loaded. -/
structure Later (s s' : St) : Prop where
  ext : Ext s.full s'.full
  io : s'.io = s.io

theorem Later.core {s s' : St} (h : Later s s') : s'.core = s.core := h.ext.core

theorem Later.trans {s s' s'' : St} (h : Later s s') (h' : Later s' s'') : Later s s'' :=
  ⟨h.ext.trans h'.ext, h'.io.trans h.io⟩

theorem Later.refl {s : St} (h : Clean s) : Later s s := ⟨Ext.refl h.wf, rfl⟩

theorem Later.heap {s : St} (h : Clean s) (xs : List Node) : Later s { s with heap := s.heap ++ xs } :=
  ⟨⟨rfl, rfl, ⟨xs, rfl⟩, fun _ _ h => h, fun _ _ h => .inl h, (h.heap xs).wf⟩, rfl⟩

theorem Later.clean {s s' : St} (h : Later s s') (hs : Clean s) : Clean s' :=
  ⟨h.ext.wf, fun r hr a ha => (h.ext.coh hs.wf hs.coh) r hr a ha⟩

theorem Later.addr {s s' : St} (h : Later s s') {r : Child} {a : Nat} (ha : addrOf s r = some a) : addrOf s' r = some a :=
  h.ext.addr (s := s.full) (s' := s'.full) ha

/-- `m` ends with a value satisfying `Q`, or fails because of a defect of the core. -/
def Fair (s : St) (m : M α) (Q : α → St → Prop) : Prop :=
  match m s with
  | (.ok a, s') => Later s s' ∧ Q a s'
  | (.error e, s') => Later s s' ∧ Blame s.core e

theorem Fair.bind {s : St} {m : M α} {f : α → M β} {Q : α → St → Prop} {R : β → St → Prop} (hs : Clean s)
    (h : Fair s m Q) (hf : ∀ a s', Later s s' → Clean s' → Q a s' → Fair s' (f a) R) : Fair s (m >>= f) R := by
  unfold Fair at h ⊢
  rw [bind_run]
  cases hm : m s with
  | mk r s1 =>
    rw [hm] at h
    cases r with
    | error e => exact h
    | ok a =>
      obtain ⟨l, q⟩ := h
      have := hf a s1 l (l.clean hs) q
      unfold Fair at this
      cases hr : f a s1 with
      | mk r2 s2 =>
        simp only [hr]
        rw [hr] at this
        cases r2 with
        | ok b => exact ⟨l.trans this.1, this.2⟩
        | error e => exact ⟨l.trans this.1, by rw [← l.core]; exact this.2⟩

theorem Fair.pure {s : St} {a : α} {Q : α → St → Prop} (hs : Clean s) (h : Q a s) : Fair s (Pure.pure a) Q :=
  ⟨Later.refl hs, h⟩

theorem Fair.fail {s : St} {e : Err} {Q : α → St → Prop} (hs : Clean s) (h : Blame s.core e) :
    Fair s (Hyperbee.throw e : M α) Q := ⟨Later.refl hs, h⟩

theorem Fair.imp {s : St} {m : M α} {Q R : α → St → Prop} (h : Fair s m Q) (hi : ∀ a s', Later s s' → Q a s' → R a s') :
    Fair s m R := by
  unfold Fair at h ⊢
  cases hm : m s with
  | mk r s1 =>
    rw [hm] at h
    cases r with
    | error e => exact h
    | ok a => exact ⟨h.1, hi _ _ h.1 h.2⟩

theorem levelsToNodes_none : ∀ {ls : List Level}, levelsToNodes ls = none → ∃ l ∈ ls, l.children.length % 2 = 1 := by
  intro ls
  induction ls with
  | nil => intro h; simp [levelsToNodes] at h
  | cons l ls ih =>
    intro h
    have odd : ∀ xs : List Nat, pairUp xs = none → xs.length % 2 = 1 := by
      intro xs
      induction xs using pairUp.induct with
      | case1 => intro h; simp [pairUp] at h
      | case2 => intro _; rfl
      | case3 s o rest h ih => intro _; have := ih h; simp; omega
      | case4 s o rest cs' h ih => intro h'; simp [pairUp, h] at h'
    unfold levelsToNodes at h
    cases h1 : levelToNode l with
    | none =>
      refine ⟨l, by simp, odd _ ?_⟩
      unfold levelToNode at h1
      cases hp : pairUp l.children with
      | none => rfl
      | some cs => simp [hp] at h1
    | some n =>
      cases h2 : levelsToNodes ls with
      | none =>
        obtain ⟨l', hl, ho⟩ := ih h2
        exact ⟨l', List.mem_cons_of_mem _ hl, ho⟩
      | some ns => simp [h1, h2] at h

theorem blockAt_none {c : List Bytes} {q : Nat} (h : blockAt c q = none) (hq : (wireBlock c q).isSome) : OddChildren c := by
  obtain ⟨p, hp⟩ := Option.isSome_iff_exists.mp hq
  obtain ⟨m, ls⟩ := p
  have hw := hp
  unfold wireBlock at hp
  unfold blockAt at h
  cases hc : c[q]? with
  | none => simp [hc] at hp
  | some x =>
    simp only [hc] at hp
    simp only [hc, Option.bind_some, blockOf] at h
    cases h1 : decodeNode x with
    | none => simp [h1] at hp
    | some m' =>
      simp only [h1] at hp h
      cases h2 : decodeYolo m'.index with
      | none => simp [h2] at hp
      | some ls' =>
        simp only [h2, Option.some.injEq, Prod.mk.injEq] at hp h
        cases h3 : levelsToNodes ls' with
        | some ns => simp [h3] at h
        | none =>
          obtain ⟨l, hl, ho⟩ := levelsToNodes_none h3
          exact ⟨q, m, ls, l, hw, hp.2 ▸ hl, ho⟩

theorem blocksGet_fair {s : St} (hs : Clean s) (q : Nat) : Fair s (blocksGet q) fun e s' => s'.cache q = some e := by
  unfold Fair
  rcases blocksGet_cases q s with ⟨e, hq, h1⟩ | ⟨hq, ⟨_, h1⟩ | ⟨_, ⟨b, hb, h1⟩ | ⟨_, hb, e, xs, h1, h2⟩⟩⟩ <;> rw [h1]
  · exact ⟨Later.refl hs, hq⟩
  · exact ⟨Later.refl hs, .missing q⟩
  · exact ⟨⟨ext_loaded (s := s.full) hs.wf hq hb, rfl⟩, by simp [loaded, cacheInsert]⟩
  · refine ⟨Later.heap hs xs, ?_⟩
    rcases h2 with ⟨rfl, _⟩ | ⟨rfl, h2⟩
    · exact .decode
    · exact .odd (blockAt_none hb h2)

/-- The node at address `a` is the one `r` refers to. -/
structure At (s : St) (r : Child) (a : Nat) (n : Node) : Prop where
  addr : addrOf s r = some a
  heap : s.heap[a]? = some n
  node : nodeAt s.core r = some n

theorem At.later {s s' : St} {r : Child} {a : Nat} {n : Node} (h : At s r a n) (hs : Clean s) (hl : Later s s') :
    At s' r a n := by
  have ha := hl.addr h.addr
  have hn : nodeAt s'.core r = some n := by rw [hl.core]; exact h.node
  exact ⟨ha, ((hl.clean hs).coh r trivial a ha).trans hn, hn⟩

theorem At.of {s : St} (hs : Clean s) {r : Child} {a : Nat} (h : addrOf s r = some a) : ∃ n, At s r a n := by
  have hlt := hs.wf.lt r a h
  have hc := hs.coh r trivial a h
  have : s.heap[a]? = some s.heap[a] := List.getElem?_eq_getElem hlt
  exact ⟨_, h, this, by rw [← hc]; exact this⟩

/-- A node of the core, on the wire. -/
theorem nodeAt_wire {c : List Bytes} {r : Child} {n : Node} (h : nodeAt c r = some n) :
    ∃ m ls l, wireBlock c r.seq = some (m, ls) ∧ ls[r.offset]? = some l ∧ l.keys = n.keys ∧
      l.children = n.children.flatMap fun c => [c.seq, c.offset] := by
  unfold nodeAt at h
  cases hb : blockAt c r.seq with
  | none => simp [hb] at h
  | some b =>
    rw [hb] at h
    obtain ⟨m, ls, w1, _, _, w4⟩ := wireBlock_blockAt hb
    obtain ⟨l, h1, h2, h3⟩ := (levelsToNodes_get w4).2 r.offset n h
    exact ⟨m, ls, l, w1, h1, h2, h3⟩

theorem length_pairs (cs : List Child) : (cs.flatMap fun c => [c.seq, c.offset]).length = 2 * cs.length := by
  induction cs with
  | nil => rfl
  | cons c cs ih => simp at ih ⊢; omega

theorem get_pairs : ∀ (cs : List Child) (j : Nat) (x : Child), cs[j]? = some x →
    (cs.flatMap fun c => [c.seq, c.offset])[2 * j]? = some x.seq ∧
    (cs.flatMap fun c => [c.seq, c.offset])[2 * j + 1]? = some x.offset := by
  intro cs
  induction cs with
  | nil => intro j x h; simp at h
  | cons c cs ih =>
    intro j x h
    cases j with
    | zero => simp at h; subst h; simp
    | succ j =>
      have := ih j x (by simpa using h)
      simp only [List.flatMap_cons]
      rw [show 2 * (j + 1) = 2 * j + 2 by omega, show 2 * j + 2 + 1 = 2 * j + 1 + 2 by omega]
      simpa using this

theorem nodeAt_refers {c : List Bytes} {r x : Child} {n : Node} (h : nodeAt c r = some n) {j : Nat}
    (hj : n.children[j]? = some x) : RefersTo c (r.seq, r.offset) (x.seq, x.offset) := by
  obtain ⟨m, ls, l, w, hl, _, hc⟩ := nodeAt_wire h
  obtain ⟨g1, g2⟩ := get_pairs n.children j x hj
  exact ⟨m, ls, l, j, w, hl, by rw [hc]; exact g1, by rw [hc]; exact g2⟩

theorem nodeAt_mem {c : List Bytes} {r : Child} {n : Node} (h : nodeAt c r = some n) : (r.seq, r.offset) ∈ allNodes 0 c := by
  obtain ⟨m, ls, l, w, hl, _⟩ := nodeAt_wire h
  obtain ⟨b, hb, hn⟩ := wireBlock_count w
  have := mem_allNodes (q0 := 0) (i := r.offset) hb (by
    rw [hn]
    exact (List.getElem?_eq_some_iff.mp hl).1)
  simpa using this

/-- Getting a node out of a cached block. -/
theorem getTreeNode_fair {s : St} (hs : Clean s) {q o : Nat} {e : BlockEntry} (he : s.cache q = some e)
    (hbad : ∀ m ls, wireBlock s.core q = some (m, ls) → ls.length ≤ o → NoSuchNode s.core) :
    Fair s (getTreeNode e o) fun a s' => ∃ n, At s' ⟨q, o⟩ a n := by
  unfold getTreeNode
  cases h : e.nodes[o]? with
  | some a => exact Fair.pure hs (At.of hs (by simp [addrOf, he, h]))
  | none =>
    refine Fair.fail hs (.node ?_)
    obtain ⟨b, hb, _, _, hl⟩ := hs.wf.ent q e he
    obtain ⟨m, ls, w1, _, _, w4⟩ := wireBlock_blockAt hb
    refine hbad m ls w1 ?_
    have := List.getElem?_eq_none_iff.mp h
    rw [(levelsToNodes_get w4).1]
    omega

theorem getChild_fair {s : St} (hs : Clean s) {r : Child} {a : Nat} {n : Node} (ha : At s r a n) {j : Nat}
    (hj : j ≤ n.keys.length) (hc : n.children ≠ []) :
    Fair s (getChild a j) fun a' s' => ∃ x n', At s' x a' n' ∧ RefersTo s.core (r.seq, r.offset) (x.seq, x.offset) := by
  unfold getChild
  refine Fair.bind hs (Q := fun m s' => m = n ∧ s' = s) ?_ ?_
  · unfold Fair; rw [readNode_some ha.heap]; exact ⟨Later.refl hs, rfl, rfl⟩
  rintro m s' _ _ ⟨rfl, rfl⟩
  cases hx : m.children[j]? with
  | none =>
    refine Fair.bind hs (Q := fun _ _ => False) (Fair.fail hs (.few ?_)) (fun _ _ _ _ h => h.elim)
    obtain ⟨w, ls, l, h1, h2, h3, h4⟩ := nodeAt_wire ha.node
    have hlen := List.getElem?_eq_none_iff.mp hx
    refine ⟨r.seq, w, ls, l, h1, List.mem_of_getElem? h2, ?_, ?_⟩
    · intro h
      rw [h] at h4
      have := length_pairs m.children
      rw [← h4] at this
      have h0 : m.children.length = 0 := by simp at this; omega
      exact hc (List.length_eq_zero_iff.mp h0)
    · rw [h4, length_pairs, h3]; omega
  | some x =>
    rw [orPanic_some]
    have hr := nodeAt_refers ha.node hx
    show Fair s' (blocksGet x.seq >>= fun block => getTreeNode block x.offset) _
    refine Fair.bind hs (blocksGet_fair hs x.seq) ?_
    intro e s1 l1 c1 he
    refine (getTreeNode_fair c1 he ?_).imp ?_
    · intro w ls hw hl
      rw [l1.core] at hw ⊢
      exact .inr ⟨_, _, w, ls, hr, hw, hl⟩
    · rintro a' s2 l2 ⟨n', hn'⟩
      exact ⟨x, n', hn', hr⟩

theorem getKeyValue_fair {s : St} (hs : Clean s) {r : Child} {a : Nat} {n : Node} (ha : At s r a n) {j : Nat}
    (hj : j < n.keys.length) : Fair s (getKeyValue a j) fun _ _ => True := by
  unfold getKeyValue
  refine Fair.bind hs (Q := fun m s' => m = n ∧ s' = s) ?_ ?_
  · unfold Fair; rw [readNode_some ha.heap]; exact ⟨Later.refl hs, rfl, rfl⟩
  rintro m s' _ _ ⟨rfl, rfl⟩
  rw [List.getElem?_eq_getElem hj, orPanic_some]
  show Fair s' (blocksGet m.keys[j] >>= fun b1 => blocksGet m.keys[j] >>= fun b2 => Pure.pure _) _
  refine Fair.bind hs (blocksGet_fair hs _) fun b1 s1 l1 c1 _ => ?_
  refine Fair.bind c1 (blocksGet_fair c1 _) fun b2 s2 l2 c2 _ => ?_
  exact Fair.pure c2 trivial

theorem searchLoop_fair (key : LimitValue) : ∀ (fuel : Nat) {s : St} (_ : Clean s) {r : Child} {a : Nat} {n : Node}
    (_ : At s r a n) (low high : Nat), low ≤ high + 1 → high < n.keys.length → high + 2 ≤ low + fuel →
    Fair s (searchLoop a key fuel low high) fun p _ => p.2 ≤ n.keys.length ∧ (p.1.isSome → p.2 < n.keys.length) := by
  intro fuel
  induction fuel with
  | zero => intro s hs r a n ha low high hl hh hf; omega
  | succ fuel ih =>
    intro s hs r a n ha low high hl hh hf
    unfold searchLoop
    split
    · rename_i hle
      have hm : low + ((high - low) >>> 1) ≤ high := by
        rw [Nat.shiftRight_eq_div_pow]; omega
      have hm2 : low ≤ low + ((high - low) >>> 1) := by omega
      generalize low + ((high - low) >>> 1) = mid at hm hm2
      refine Fair.bind hs (getKeyValue_fair hs ha (j := mid) (by omega)) fun kv s1 l1 c1 _ => ?_
      have ha1 := ha.later hs l1
      split
      · exact Fair.pure c1 ⟨by simp; omega, fun _ => by simp; omega⟩
      · split
        · split
          · exact Fair.pure c1 ⟨by simp; omega, fun h => by simp at h⟩
          · exact ih c1 ha1 _ _ (by omega) (by omega) (by omega)
        · exact ih c1 ha1 _ _ (by omega) hh (by omega)
    · exact Fair.pure hs ⟨by simp; omega, fun h => by simp at h⟩

theorem getIndexOfKey_fair (key : LimitValue) {s : St} (hs : Clean s) {r : Child} {a : Nat} {n : Node} (ha : At s r a n) :
    Fair s (getIndexOfKey a key) fun p _ => p.2 ≤ n.keys.length ∧ (p.1.isSome → p.2 < n.keys.length) := by
  unfold getIndexOfKey
  refine Fair.bind hs (Q := fun m s' => m = n ∧ s' = s) ?_ ?_
  · unfold Fair; rw [readNode_some ha.heap]; exact ⟨Later.refl hs, rfl, rfl⟩
  rintro m s' _ _ ⟨rfl, rfl⟩
  simp only
  split
  · exact Fair.pure hs ⟨by simp, fun h => by simp at h⟩
  · exact searchLoop_fair key _ hs ha 0 _ (by omega) (by omega) (by omega)

theorem isLeaf_fair {s : St} (hs : Clean s) {r : Child} {a : Nat} {n : Node} (ha : At s r a n) :
    Fair s (isLeaf a) fun b s' => s' = s ∧ (b = true ↔ n.children = []) := by
  unfold isLeaf
  refine Fair.bind hs (Q := fun m s' => m = n ∧ s' = s) ?_ ?_
  · unfold Fair; rw [readNode_some ha.heap]; exact ⟨Later.refl hs, rfl, rfl⟩
  rintro m s' _ _ ⟨rfl, rfl⟩
  exact Fair.pure hs ⟨rfl, by simp⟩

/-- A path of nodes down to `r`, newest first, itself included. -/
structure PathTo (c : List Bytes) (r : Child) (xs : List (Nat × Nat)) : Prop where
  head : xs.head? = some (r.seq, r.offset)
  desc : xs.Pairwise fun a b => Relation.TransGen (RefersTo c) b a
  real : ∀ x ∈ xs, x ∈ allNodes 0 c

theorem PathTo.one {c : List Bytes} {r : Child} {n : Node} (h : nodeAt c r = some n) : PathTo c r [(r.seq, r.offset)] :=
  ⟨rfl, by simp, by simpa using nodeAt_mem h⟩

theorem PathTo.snoc {c : List Bytes} {r x : Child} {xs : List (Nat × Nat)} (h : PathTo c r xs)
    (hr : RefersTo c (r.seq, r.offset) (x.seq, x.offset)) {n : Node} (hx : nodeAt c x = some n) :
    PathTo c x ((x.seq, x.offset) :: xs) := by
  refine ⟨rfl, List.pairwise_cons.mpr ⟨?_, h.desc⟩, fun y hy => ?_⟩
  · intro y hy
    have hh := h.head
    cases xs with
    | nil => simp at hh
    | cons z zs =>
      simp only [List.head?_cons, Option.some.injEq] at hh
      subst hh
      rcases List.mem_cons.mp hy with rfl | hy
      · exact .single hr
      · exact ((List.pairwise_cons.mp h.desc).1 y hy).tail hr
  · rcases List.mem_cons.mp hy with rfl | hy
    · exact nodeAt_mem hx
    · exact h.real y hy

theorem nearestLoop_fair (key : LimitValue) : ∀ (fuel : Nat) {s : St} (_ : Clean s) {r : Child} {a : Nat} {n : Node}
    (_ : At s r a n) (path : NodePath) (xs : List (Nat × Nat)), PathTo s.core r xs → stepBound s.core ≤ xs.length + fuel →
    Fair s (nearestLoop key fuel a path) fun p s' => ∃ r' a' i n' rest, p.2 = (a', i) :: rest ∧ At s' r' a' n' ∧
      (p.1.isSome → i < n'.keys.length) := by
  intro fuel
  induction fuel with
  | zero =>
    intro s hs r a n ha path xs hp hf
    exact Fair.fail hs (.cycle (cycle_of_long hp.desc hp.real (by omega)))
  | succ fuel ih =>
    intro s hs r a n ha path xs hp hf
    unfold nearestLoop
    refine Fair.bind hs (getIndexOfKey_fair key hs ha) ?_
    rintro ⟨matched, ci⟩ s1 l1 c1 ⟨h1, h2⟩
    have ha1 := ha.later hs l1
    simp only
    refine Fair.bind c1 (isLeaf_fair c1 ha1) ?_
    rintro leaf s2 l2 c2 ⟨rfl, hleaf⟩
    split
    · exact Fair.pure c2 ⟨r, a, ci, n, path, rfl, ha1, h2⟩
    · rename_i hb
      have hnl : n.children ≠ [] := by
        intro h
        rw [hleaf.mpr h] at hb
        simp at hb
      refine Fair.bind c2 (getChild_fair c2 ha1 h1 hnl) ?_
      rintro a' s3 l3 c3 ⟨x, n', hx, hr⟩
      have hcore : s3.core = s.core := l3.core.trans l1.core
      refine ih c3 hx _ ((x.seq, x.offset) :: xs) ?_ ?_
      · rw [hcore]
        rw [l1.core] at hr
        exact hp.snoc hr (by rw [← hcore]; exact hx.node)
      · rw [hcore]; simp; omega

theorem getRoot_fair {s : St} (hs : Clean s) : Fair s (getRoot false) fun o s' =>
    match o with
    | none => s.core.length ≤ 1
    | some a => ∃ r n, At s' r a n := by
  unfold getRoot
  rw [show (version >>= fun v => if v ≤ 1 then (if v = 0 ∧ false = true then (ensureHeader >>= fun _ => Pure.pure none) else Pure.pure none)
    else (blocksGet (v - 1) >>= fun block => getTreeNode block 0 >>= fun root => Pure.pure (some root)) : M (Option Addr)) = _ from rfl]
  refine Fair.bind hs (Q := fun v s' => v = s.core.length ∧ s' = s) ⟨Later.refl hs, rfl, rfl⟩ ?_
  rintro v s' _ _ ⟨rfl, rfl⟩
  split
  · rename_i hv
    rw [if_neg (by simp)]
    exact Fair.pure hs hv
  · refine Fair.bind hs (blocksGet_fair hs _) fun e s1 l1 c1 he => ?_
    refine Fair.bind c1 (getTreeNode_fair c1 he ?_) ?_
    · intro m ls hw hl
      left
      have : ls = [] := List.length_eq_zero_iff.mp (by omega)
      subst this
      rw [l1.core] at hw ⊢
      exact ⟨m, hw⟩
    · rintro a s2 _ c2 ⟨n, hn⟩
      exact Fair.pure c2 ⟨_, n, hn⟩

theorem get_fair {s : St} (hs : Clean s) (k : Bytes) : Fair s (get k) fun _ _ => True := by
  unfold get
  refine Fair.bind hs (getRoot_fair hs) ?_
  intro o s1 l1 c1 ho
  cases o with
  | none => exact Fair.pure c1 trivial
  | some a =>
    obtain ⟨r, n, ha⟩ := ho
    simp only
    refine Fair.bind c1 (Q := fun p s' => ∃ r' a' i n' rest, p.2 = (a', i) :: rest ∧ At s' r' a' n' ∧
      (p.1.isSome → i < n'.keys.length)) ?_ ?_
    · unfold nearestNode
      refine Fair.bind c1 (Q := fun f s' => f = stepBound s1.core ∧ s' = s1) ⟨Later.refl c1, rfl, rfl⟩ ?_
      rintro f s' _ _ ⟨rfl, rfl⟩
      exact nearestLoop_fair _ _ c1 ha [] _ (PathTo.one ha.node) (by simp)
    · rintro ⟨m, p⟩ s2 l2 c2 ⟨r', a', i, n', rest, hp, ha', hi⟩
      simp only at hp hi
      subst hp
      simp only
      split
      · rename_i hm
        simp only [List.head?_cons, orPanic_some]
        show Fair s2 (getKeyValue a' i >>= fun kv => Pure.pure _) _
        exact Fair.bind c2 (getKeyValue_fair c2 ha' (hi hm)) fun kv s3 _ c3 _ => Fair.pure c3 trivial
      · exact Fair.pure c2 trivial

theorem heightLoop_fair : ∀ (fuel out : Nat) {s : St} (_ : Clean s) {r : Child} {a : Nat} {n : Node}
    (_ : At s r a n) (xs : List (Nat × Nat)), PathTo s.core r xs → stepBound s.core ≤ xs.length + fuel →
    Fair s (heightLoop fuel out a) fun _ _ => True := by
  intro fuel
  induction fuel with
  | zero =>
    intro out s hs r a n ha xs hp hf
    exact Fair.fail hs (.cycle (cycle_of_long hp.desc hp.real (by omega)))
  | succ fuel ih =>
    intro out s hs r a n ha xs hp hf
    unfold heightLoop
    simp only
    refine Fair.bind hs (Q := fun m s' => m = n ∧ s' = s) ?_ ?_
    · unfold Fair; rw [readNode_some ha.heap]; exact ⟨Later.refl hs, rfl, rfl⟩
    rintro m s' _ _ ⟨rfl, rfl⟩
    split
    · exact Fair.pure hs trivial
    · rename_i hb
      refine Fair.bind hs (getChild_fair hs ha (Nat.zero_le _) (fun h => hb (by simp [h]))) ?_
      rintro a' s3 l3 c3 ⟨x, n', hx, hr⟩
      refine ih _ c3 hx ((x.seq, x.offset) :: xs) ?_ ?_
      · rw [l3.core]
        exact hp.snoc hr (by rw [← l3.core]; exact hx.node)
      · rw [l3.core]; simp; omega

theorem height_fair {s : St} (hs : Clean s) : Fair s height fun _ _ => True := by
  unfold height
  refine Fair.bind hs (getRoot_fair hs) ?_
  intro o s1 l1 c1 ho
  cases o with
  | none => exact Fair.pure c1 trivial
  | some a =>
    obtain ⟨r, n, ha⟩ := ho
    simp only
    unfold nodeHeight
    refine Fair.bind c1 (isLeaf_fair c1 ha) ?_
    rintro leaf s2 l2 c2 ⟨rfl, hleaf⟩
    split
    · exact Fair.pure c2 trivial
    · rename_i hb
      refine Fair.bind c2 (getChild_fair c2 ha (Nat.zero_le _) (fun h => hb (hleaf.mpr h))) ?_
      rintro a' s3 l3 c3 ⟨x, n', hx, hr⟩
      refine Fair.bind c3 (Q := fun f s' => f = stepBound s3.core ∧ s' = s3) ⟨Later.refl c3, rfl, rfl⟩ ?_
      rintro f s' _ _ ⟨rfl, rfl⟩
      exact heightLoop_fair _ _ c3 hx _ (PathTo.one hx.node) (by simp)

/-! ## Traversals -/

theorem Fair.tryResult {s : St} {m : M α} {Q : α → St → Prop} (hs : Clean s) (h : Fair s m Q) :
    Fair s (Hyperbee.tryResult m) fun r s' => ∀ a, r = .ok a → Q a s' := by
  unfold Fair Hyperbee.tryResult at *
  cases hm : m s with
  | mk r s1 =>
    rw [hm] at h
    cases r with
    | ok a => exact ⟨h.1, fun b hb => by cases hb; exact h.2⟩
    | error e =>
      obtain ⟨h1, h2⟩ := h
      cases e with
      | panic site => exact ⟨h1, h2⟩
      | diverge => exact ⟨h1, h2⟩
      | _ => exact ⟨h1, fun b hb => by cases hb⟩

theorem mem_rangeStepF (stop step : Nat) : ∀ (fuel start x : Nat), x ∈ rangeStepF stop step fuel start →
    start ≤ x ∧ x < stop ∧ (step = 2 → x % 2 = start % 2) := by
  intro fuel
  induction fuel with
  | zero => intro start x h; simp [rangeStepF] at h
  | succ fuel ih =>
    intro start x h
    unfold rangeStepF at h
    split at h
    · rcases List.mem_cons.mp h with rfl | h
      · exact ⟨by omega, by assumption, fun _ => rfl⟩
      · obtain ⟨h1, h2, h3⟩ := ih _ _ h
        refine ⟨by omega, h2, fun hs => ?_⟩
        have := h3 hs
        subst hs
        omega
    · simp at h

/-- An index of the traversal's iterator is that of a key or of a child. -/
def IndexOk (n : Node) (x : Nat) : Prop :=
  if x % 2 = 0 then x / 2 ≤ n.keys.length ∧ n.children ≠ [] else x / 2 < n.keys.length

theorem makeIter_fair (conf : TraverseConfig) {s : St} (hs : Clean s) {r : Child} {a : Nat} {n : Node} (ha : At s r a n) :
    Fair s (makeChildKeyIndexIter conf a n.keys.length n.children.length) fun xs _ => ∀ x ∈ xs, IndexOk n x := by
  unfold makeChildKeyIndexIter
  simp only
  refine Fair.bind hs (getIndexOfKey_fair _ hs ha) ?_
  rintro ⟨matched, index⟩ s1 l1 c1 ⟨h1, h2⟩
  simp only at h1 h2
  simp only
  split
  · exact Fair.pure c1 (by simp)
  · rename_i start hst
    refine Fair.pure c1 ?_
    intro x hx
    have hx' : x ∈ rangeStep
        (if (!conf.reversed) = true then (start, n.keys.length * 2 + 1)
          else if (n.children.length == 0) = true then (1, start + 1) else (0, start + 1)).1
        (if (!conf.reversed) = true then (start, n.keys.length * 2 + 1)
          else if (n.children.length == 0) = true then (1, start + 1) else (0, start + 1)).2
        (if (n.children.length == 0) = true then 2 else 1) := by
      by_cases hrev : conf.reversed = true
      · rw [if_pos hrev] at hx; exact List.mem_reverse.mp hx
      · rw [if_neg hrev] at hx; exact hx
    obtain ⟨g1, g2, g3⟩ := mem_rangeStepF _ _ _ _ _ hx'
    unfold IndexOk
    by_cases hleaf : n.children.length = 0
    · have hl : (n.children.length == 0) = true := by simpa using hleaf
      simp only [hl, if_true, Bool.not_true, Bool.false_eq_true, if_false] at hst g1 g2 g3
      have g3 := g3 trivial
      cases hrev : conf.reversed <;> simp only [hrev, Bool.not_true, Bool.not_false, Bool.false_eq_true, if_false, if_true] at hst g1 g2 g3
      · have : start % 2 = 1 := by
          split at hst
          · split at hst <;> simp only [Option.some.injEq] at hst <;> omega
          · simp only [Option.some.injEq] at hst; omega
        rw [if_neg (by omega)]
        omega
      · have : start ≤ 2 * n.keys.length := by
          split at hst
          · rename_i hm
            have := h2 hm
            split at hst
            · simp only [Option.some.injEq] at hst; omega
            · split at hst
              · cases hst
              · simp only [Option.some.injEq] at hst; omega
          · split at hst <;> simp only [Option.some.injEq] at hst <;> omega
        rw [if_neg (by omega)]
        omega
    · have hl : (n.children.length == 0) = false := by simpa using hleaf
      have hc : n.children ≠ [] := fun h => hleaf (by simp [h])
      simp only [hl, if_true, Bool.not_false, Bool.false_eq_true, if_false] at hst g1 g2 g3
      have hx2 : x ≤ 2 * n.keys.length := by
        cases hrev : conf.reversed <;> simp only [hrev, Bool.not_true, Bool.not_false, Bool.false_eq_true, if_false, if_true] at hst g1 g2 g3
        · omega
        · split at hst
          · rename_i hm
            have := h2 hm
            split at hst
            · simp only [Option.some.injEq] at hst; omega
            · split at hst
              · cases hst
              · simp only [Option.some.injEq] at hst; omega
          · simp only [Option.some.injEq] at hst; omega
      split
      · exact ⟨by omega, hc⟩
      · omega

/-- What holds of one node of a traversal in progress. -/
structure FrameOk (s : St) (f : Frame) : Prop where
  node : ∃ r n, At s r f.root n ∧ (∀ p, f.nkc = some p → p = (n.keys.length, n.children.length)) ∧
    (∀ xs, f.iter = some xs → ∀ x ∈ xs, IndexOk n x) ∧
    (∀ i c, f.nextKey = some (i, c) → i < n.keys.length ∧ c = false) ∧
    (∀ i, f.nextChild = some i → i ≤ n.keys.length ∧ n.children ≠ [])
  /-- The iterator has not failed to build. -/
  built : f.iter = none → f.iterFut ≠ some true

theorem FrameOk.later {s s' : St} {f : Frame} (h : FrameOk s f) (hs : Clean s) (hl : Later s s') : FrameOk s' f := by
  obtain ⟨r, n, ha, h1⟩ := h.node
  exact ⟨⟨r, n, ha.later hs hl, h1⟩, h.built⟩

theorem FrameOk.new {s : St} {r : Child} {a : Nat} {n : Node} (ha : At s r a n) (conf : TraverseConfig) :
    FrameOk s (Frame.new a conf) :=
  ⟨⟨r, n, ha, fun _ h => (by cases h), fun _ h => (by cases h), fun _ _ h => (by cases h), fun _ h => (by cases h)⟩,
    fun _ h => by cases h⟩

/-- The stream has yielded the error it does not survive. -/
def Broke (p : PollR) : Prop := ∃ e a w, p = .ready (some (.error (.buildIteratorInTraverse e), a)) w

/-- What a poll leaves behind. -/
def Polled (p : PollR × List Frame) (s : St) : Prop :=
  (∃ w, p.1 = .ready none w) ∨ Broke p.1 ∨ (p.2 ≠ [] ∧ ∀ f ∈ p.2, FrameOk s f)

theorem Polled.one {p : PollR} {f : Frame} {s : St} (h : FrameOk s f) : Polled (p, [f]) s :=
  .inr (.inr ⟨by simp, by simpa using h⟩)

theorem pollSetup_fair {s : St} (hs : Clean s) (ready : Bool) {f : Frame} (hf : FrameOk s f) :
    Fair s (pollSetup ready f) Polled := by
  obtain ⟨r, n, ha, h1, h2, h3, h4⟩ := hf.node
  unfold pollSetup
  split
  · rename_i hn
    split
    · exact Fair.pure hs (.one ⟨⟨r, n, ha, h1, h2, h3, h4⟩, hf.built⟩)
    · split
      · exact Fair.pure hs (.one hf)
      · refine Fair.bind hs (Q := fun m s' => m = n ∧ s' = s) ?_ ?_
        · unfold Fair; rw [readNode_some ha.heap]; exact ⟨Later.refl hs, rfl, rfl⟩
        rintro m s' _ _ ⟨rfl, rfl⟩
        exact Fair.pure hs (.one ⟨⟨r, m, ha, fun p hp => by simp at hp; rw [hp], h2, h3, h4⟩, hf.built⟩)
  · rename_i nKeys nChildren hn
    have hnk := h1 _ hn
    simp only [Prod.mk.injEq] at hnk
    obtain ⟨rfl, rfl⟩ := hnk
    split
    · rename_i hi
      split
      · exact Fair.pure hs (.one ⟨⟨r, n, ha, h1, h2, h3, h4⟩, fun _ h => by simp at h⟩)
      · rename_i hfut
        exact (hf.built hi hfut).elim
      · rename_i hfut
        split
        · exact Fair.pure hs (.one hf)
        · refine Fair.bind hs (Fair.tryResult hs (makeIter_fair f.config hs ha)) ?_
          intro res s1 l1 c1 hres
          cases res with
          | ok iter =>
            exact Fair.pure c1 (.one ⟨⟨r, n, ha.later hs l1, h1, fun xs hxs => by
              simp only [Option.some.injEq] at hxs; rw [← hxs]; exact hres iter rfl, h3, h4⟩, fun h => by simp at h⟩)
          | error e => exact Fair.pure c1 (.inr (.inl ⟨e, _, _, rfl⟩))
    · exact Fair.pure hs (.inl ⟨_, rfl⟩)
    · rename_i index rest hi
      have hmem : ∀ x ∈ rest, IndexOk n x := fun x hx => h2 _ hi x (List.mem_cons_of_mem _ hx)
      have hidx := h2 _ hi index (by simp)
      unfold IndexOk at hidx
      have hsh : index >>> 1 = index / 2 := by rw [Nat.shiftRight_eq_div_pow]
      split
      · rename_i he
        rw [if_pos he] at hidx
        exact Fair.pure hs (.one ⟨⟨r, n, ha, h1, fun xs hxs => by
          simp only [Option.some.injEq] at hxs; rw [← hxs]; exact hmem, h3, fun i hi => by
          simp only [Option.some.injEq] at hi; rw [← hi, hsh]; exact hidx⟩, fun h => by simp at h⟩)
      · rename_i he
        rw [if_neg he] at hidx
        exact Fair.pure hs (.one ⟨⟨r, n, ha, h1, fun xs hxs => by
          simp only [Option.some.injEq] at hxs; rw [← hxs]; exact hmem, fun i c hi => by
          simp only [Option.some.injEq, Prod.mk.injEq] at hi; rw [← hi.1, hsh]; exact ⟨hidx, hi.2.symm⟩, h4⟩, fun h => by simp at h⟩)

theorem poll_fair (ready : Bool) : ∀ (fs : List Frame) {s : St}, Clean s → fs ≠ [] → (∀ f ∈ fs, FrameOk s f) →
    Fair s (poll ready fs) Polled := by
  intro fs
  induction fs with
  | nil => intro s _ h; exact (h rfl).elim
  | cons f rest ih =>
    intro s hs _ hfs
    have hf := hfs f (by simp)
    obtain ⟨r, n, ha, h1, h2, h3, h4⟩ := hf.node
    have hrest : ∀ g ∈ rest, FrameOk s g := fun g hg => hfs g (List.mem_cons_of_mem _ hg)
    unfold poll
    split
    · rename_i index completed hk
      obtain ⟨hlt, rfl⟩ := h3 _ _ hk
      rw [if_neg (by simp)]
      split
      · exact Fair.pure hs (.inr (.inr ⟨by simp, hfs⟩))
      · refine Fair.bind hs (Fair.tryResult hs (getKeyValue_fair hs ha hlt)) ?_
        intro res s1 l1 c1 _
        have hok : FrameOk s1 { f with nextKey := none } :=
          ⟨⟨r, n, ha.later hs l1, h1, h2, fun i c hi => (by simp at hi), h4⟩, hf.built⟩
        have hall : ∀ g ∈ { f with nextKey := none } :: rest, FrameOk s1 g := by
          intro g hg
          rcases List.mem_cons.mp hg with rfl | hg
          · exact hok
          · exact (hrest g hg).later hs l1
        cases res with
        | ok kv =>
          simp only
          split
          · exact Fair.pure c1 (.inl ⟨_, rfl⟩)
          · exact Fair.pure c1 (.inr (.inr ⟨by simp, hall⟩))
        | error e => exact Fair.pure c1 (.inr (.inr ⟨by simp, hall⟩))
    · split
      · rename_i index hc
        obtain ⟨hle, hne⟩ := h4 _ hc
        split
        · exact Fair.pure hs (.inr (.inr ⟨by simp, hfs⟩))
        · refine Fair.bind hs (Fair.tryResult hs (getChild_fair hs ha hle hne)) ?_
          intro res s1 l1 c1 hres
          have hok : FrameOk s1 { f with nextChild := none } :=
            ⟨⟨r, n, ha.later hs l1, h1, h2, h3, fun i hi => by simp at hi⟩, hf.built⟩
          cases res with
          | ok child =>
            obtain ⟨x, n', hx, _⟩ := hres child rfl
            refine Fair.pure c1 (.inr (.inr ⟨by simp, ?_⟩))
            intro g hg
            rcases List.mem_cons.mp hg with rfl | hg
            · exact hok
            · rw [List.mem_singleton.mp hg]
              exact FrameOk.new hx _
          | error e =>
            refine Fair.pure c1 (.inr (.inr ⟨by simp, ?_⟩))
            intro g hg
            rcases List.mem_cons.mp hg with rfl | hg
            · exact hok
            · exact (hrest g hg).later hs l1
      · cases rest with
        | nil => exact pollSetup_fair hs ready hf
        | cons c cs =>
          simp only
          refine Fair.bind hs (ih hs (by simp) hrest) ?_
          rintro ⟨p, rest'⟩ s1 l1 c1 hp
          have hf1 := hf.later hs l1
          simp only
          have hkeep : ∀ p', (∀ g ∈ rest', FrameOk s1 g) → Polled (p', f :: rest') s1 := fun p' hg =>
            .inr (.inr ⟨by simp, fun g hg' => by
              rcases List.mem_cons.mp hg' with rfl | hg'
              · exact hf1
              · exact hg g hg'⟩)
          cases p with
          | pending w1 w2 =>
            rcases hp with ⟨w, hw⟩ | ⟨e, a, w, hw⟩ | ⟨_, hg⟩
            · cases hw
            · cases hw
            · exact Fair.pure c1 (hkeep _ hg)
          | ready item w1 =>
            cases item with
            | none => exact Fair.pure c1 (.one hf1)
            | some item =>
              rcases hp with ⟨w, hw⟩ | ⟨e, a, w, hw⟩ | ⟨_, hg⟩
              · cases hw
              · refine Fair.pure c1 (.inr (.inl ⟨e, a, w, ?_⟩))
                simpa using hw
              · exact Fair.pure c1 (hkeep _ hg)

theorem traverse_fair {s : St} (hs : Clean s) (h2 : 2 ≤ s.core.length) (conf : TraverseConfig) :
    Fair s (traverse conf) fun fs s' => fs ≠ [] ∧ ∀ f ∈ fs, FrameOk s' f := by
  unfold traverse
  refine Fair.bind hs (getRoot_fair hs) ?_
  intro o s1 l1 c1 ho
  cases o with
  | none => simp only at ho; omega
  | some a =>
    obtain ⟨r, n, ha⟩ := ho
    exact Fair.pure c1 ⟨by simp, by simpa using FrameOk.new ha conf⟩

/-- Polling a stream over any core: it fails only because of a defect, or because it has yielded
the error after which it must not be polled. -/
theorem drive_fair : ∀ (sched : List Bool) (fs : List Frame) {s : St}, Clean s → fs ≠ [] → (∀ f ∈ fs, FrameOk s f) →
    ∀ e s', drive pure sched fs s = (.error e, s') → Blame s.core e ∨
      ∃ sch xs e' fin s'', sch <+: sched ∧ drive pure sch fs s = (.ok (xs, fin), s'') ∧
        xs.getLast? = some (.error (.buildIteratorInTraverse e')) := by
  intro sched
  induction sched with
  | nil => intro fs s _ _ _ e s' h; cases h
  | cons r rs ih =>
    intro fs s hs hne hfs e s' h
    have hp := poll_fair r fs hs hne hfs
    unfold Fair at hp
    unfold drive at h
    rw [bind_run] at h
    cases hpoll : poll r fs s with
    | mk res s1 =>
      rw [hpoll] at h hp
      cases res with
      | error e1 =>
        left
        cases h
        exact hp.2
      | ok pf =>
        obtain ⟨p, fs'⟩ := pf
        obtain ⟨l1, hp⟩ := hp
        have c1 := l1.clean hs
        simp only at h
        cases p with
        | pending w1 w2 =>
          simp only at h
          rcases hp with ⟨w, hw⟩ | ⟨e2, a, w, hw⟩ | ⟨hne', hg⟩
          · cases hw
          · cases hw
          · rcases ih fs' c1 hne' hg e s' h with hb | ⟨sch, xs, e', fin, s'', g1, g2, g3⟩
            · left; rw [← l1.core]; exact hb
            · refine .inr ⟨r :: sch, xs, e', fin, s'', List.cons_prefix_cons.mpr ⟨rfl, g1⟩, ?_, g3⟩
              unfold drive
              rw [bind_ok hpoll]
              exact g2
        | ready item w =>
          cases item with
          | none => simp only at h; cases h
          | some it =>
            obtain ⟨x, a⟩ := it
            simp only [pure_bind_run] at h
            rw [bind_run] at h
            cases hd : drive pure rs fs' s1 with
            | mk res2 s2 =>
              rw [hd] at h
              cases res2 with
              | ok q => cases h
              | error e2 =>
                cases h
                rcases hp with ⟨w', hw⟩ | ⟨e3, a', w', hw⟩ | ⟨hne', hg⟩
                · cases hw
                · cases hw
                  refine .inr ⟨[r], [.error (.buildIteratorInTraverse e3)], e3, some fs', s1, by simp, ?_, rfl⟩
                  unfold drive
                  rw [bind_ok hpoll]
                  rfl
                · rcases ih fs' c1 hne' hg e s' hd with hb | ⟨sch, xs, e', fin, s'', g1, g2, g3⟩
                  · left; rw [← l1.core]; exact hb
                  · refine .inr ⟨r :: sch, x :: xs, e', fin, s'', List.cons_prefix_cons.mpr ⟨rfl, g1⟩, ?_, ?_⟩
                    · unfold drive
                      rw [bind_ok hpoll]
                      simp only [pure_bind_run]
                      rw [bind_ok g2]
                      rfl
                    · cases xs with
                      | nil => simp at g3
                      | cons y ys => simpa using g3

end Hyperbee
