import Verif.Proof.Sched
import Verif.Proof.PutRun
/-!
# A write among reads, and the same write alone

`Duo` relates the state of a handle on which a call writes while others read to the state of a
handle on which the same call runs alone.  `Duet`: whatever is read in between, each step of the
write keeps the two related, and it ends with the same result.
-/

namespace Hyperbee

/-- The made-up address of the node a reference refers to. -/
def nm (base : Nat) (r : Child) : Nat := base + Nat.pair r.seq r.offset

theorem nm_inj {base : Nat} {r r' : Child} (h : nm base r = nm base r') : r = r' := by
  simp only [nm, Nat.add_left_cancel_iff] at h
  have := Nat.pair_eq_pair.mp h
  cases r; cases r'
  simp_all

/-- `sA`: a handle on which one call writes and others read; `sB`: one on which the call runs alone.
`Γ`: the nodes the writer has to do with, and the same nodes there.  `Λ`: the nodes loaded from the
core, by anyone.  With `strict`, no reader has filed a block that was in the cache already. -/
structure Duo (base : Nat) (strict : Bool) (Γ Λ : Names) (sA sB : St) : Prop where
  core : sA.core = sB.core
  io : sA.io = sB.io
  wf : SWF sB
  dom : ∀ a i, Γ a = some i → ∃ n, sA.heap[a]? = some n ∧ sB.heap[i]? = some n
  inj : ∀ a a' i, Γ a = some i → Γ a' = some i → a = a'
  lt : ∀ a i, Λ a = some i → a < sA.heap.length
  cop : ∀ a r, Λ a = some (nm base r) → Γ a = none → sA.heap[a]? = nodeAt sA.core r
  own : ∀ a r i, Λ a = some (nm base r) → Γ a = some i → addrOf sB r = some i
  ent : ∀ q e, sA.cache q = some e → ∃ b, blockAt sA.core q = some b ∧ e.key = b.key ∧
    e.value = b.value ∧ e.nodes.length = b.nodes.length
  adr : ∀ r a, addrOf sA r = some a →
    (∃ i, Γ a = some i ∧ addrOf sB r = some i) ∨ (Γ a = none ∧ Λ a = some (nm base r))
  has : strict = true → ∀ q e', sB.cache q = some e' → ∃ e, sA.cache q = some e ∧ ERel Γ e e'

variable {base : Nat} {strict : Bool} {Γ Λ : Names} {sA sB : St}

theorem Duo.named (h : Duo base strict Γ Λ sA sB) {a i : Nat} (ha : Γ a = some i) :
    a < sA.heap.length ∧ i < sB.heap.length := by
  obtain ⟨n, h1, h2⟩ := h.dom a i ha
  exact ⟨(List.getElem?_eq_some_iff.mp h1).1, (List.getElem?_eq_some_iff.mp h2).1⟩

/-! ## What readers do -/

theorem Duo.grow (h : Duo base strict Γ Λ sA sB) (xs : List Node) :
    Duo base strict Γ Λ { sA with heap := sA.heap ++ xs } sB := by
  refine ⟨h.core, h.io, h.wf, ?_, h.inj, ?_, ?_, h.own, h.ent, h.adr, h.has⟩
  · intro a i hi
    obtain ⟨n, h1, h2⟩ := h.dom a i hi
    exact ⟨n, by simp [List.getElem?_append_left (h.named hi).1, h1], h2⟩
  · intro a i hi
    have := h.lt a i hi
    simp only [List.length_append]
    omega
  · intro a r hr hg
    rw [← h.cop a r hr hg]
    exact List.getElem?_append_left (h.lt a _ hr)

theorem Duo.load (h : Duo base strict Γ Λ sA sB) {q : Nat} {b : Blk} (hb : blockAt sA.core q = some b) :
    Λ.le (Λ.load sA.heap.length b.nodes.length fun j => base + Nat.pair q j) ∧
    Duo base strict Γ (Λ.load sA.heap.length b.nodes.length fun j => base + Nat.pair q j)
      { sA with heap := sA.heap ++ b.nodes } sB := by
  have hle : Λ.le (Λ.load sA.heap.length b.nodes.length fun j => base + Nat.pair q j) := by
    intro a i ha
    have := h.lt a i ha
    simp only [Names.load]
    rw [if_neg (by omega)]
    exact ha
  have hg := h.grow b.nodes
  refine ⟨hle, hg.core, hg.io, hg.wf, hg.dom, hg.inj, ?_, ?_, ?_, hg.ent, ?_, hg.has⟩
  · intro a i hi
    simp only [Names.load] at hi
    split at hi
    · simp only [List.length_append]; omega
    · exact hg.lt a i hi
  · intro a r hr hn
    simp only [Names.load] at hr
    split at hr
    · rename_i hlt
      have : r = ⟨q, a - sA.heap.length⟩ := by
        refine nm_inj (base := base) ?_
        simp only [Option.some.injEq] at hr
        exact hr.symm
      subst this
      simp only [nodeAt, hb, Option.bind_some]
      exact List.getElem?_append_right hlt.1
    · exact hg.cop a r hr hn
  · intro a r i hr hi
    simp only [Names.load] at hr
    split at hr
    · have := (h.named hi).1
      omega
    · exact h.own a r i hr hi
  · intro r a ha
    rcases h.adr r a ha with h1 | ⟨h1, h2⟩
    · exact .inl h1
    · exact .inr ⟨h1, hle _ _ h2⟩

theorem Duo.file (h : Duo base strict Γ Λ sA sB) {q : Nat} {e : BlockEntry} {b : Blk}
    (hb : blockAt sA.core q = some b)
    (hr : ERel Λ e ⟨(List.range b.nodes.length).map fun j => base + Nat.pair q j, b.key, b.value⟩)
    (hs : strict = true → sB.cache q = none) :
    Duo base strict Γ Λ { sA with cache := cacheInsert q e sA.cache } sB := by
  have hlen : e.nodes.length = b.nodes.length := by have := hr.nodes.length_eq; simpa using this
  refine ⟨h.core, h.io, h.wf, h.dom, h.inj, h.lt, h.cop, h.own, ?_, ?_, ?_⟩
  · intro q' e' he'
    by_cases hq : q' = q
    · subst hq
      simp only [cacheInsert, if_true, Option.some.injEq] at he'
      subst he'
      exact ⟨b, hb, hr.key, hr.value, hlen⟩
    · simp only [cacheInsert, hq, if_false] at he'
      exact h.ent q' e' he'
  · intro r a ha
    by_cases hq : r.seq = q
    · subst hq
      simp only [addrOf, cacheInsert, if_true, Option.bind_some] at ha
      have hp : Λ a = some (nm base r) := by
        have := forall2_rel hr.nodes r.offset
        rw [ha] at this
        have hlt : r.offset < b.nodes.length := by
          rw [← hlen]; exact (List.getElem?_eq_some_iff.mp ha).1
        simp only [List.getElem?_map, List.getElem?_range hlt, Option.map_some] at this
        cases this with
        | some hh => exact hh
      cases hg : Γ a with
      | none => exact .inr ⟨rfl, hp⟩
      | some i => exact .inl ⟨i, rfl, h.own a r i hp hg⟩
    · have ha' : addrOf sA r = some a := by
        simpa only [addrOf, cacheInsert, hq, if_false] using ha
      exact h.adr r a ha'
  · intro ht q' e' he'
    have hq : q' ≠ q := by rintro rfl; rw [hs ht] at he'; cases he'
    simp only [cacheInsert, hq, if_false]
    exact h.has ht q' e' he'

/-! ## What the writer does -/

/-- The handle on which the call runs alone loads a block that the other has. -/
theorem Duo.join (h : Duo base true Γ Λ sA sB) {q : Nat} {e : BlockEntry} {b : Blk}
    (he : sA.cache q = some e) (hq : sB.cache q = none) (hb : blockAt sB.core q = some b) :
    ∃ Γ', Γ.le Γ' ∧ Duo base true Γ' Λ sA (loaded sB q b) ∧
      ERel Γ' e ⟨List.range' sB.heap.length b.nodes.length, b.key, b.value⟩ := by
  obtain ⟨b', hb', hk, hv, hl⟩ := h.ent q e he
  rw [h.core, hb] at hb'
  cases hb'
  have hp : ∀ j a, e.nodes[j]? = some a → Γ a = none ∧ Λ a = some (nm base ⟨q, j⟩) := by
    intro j a ha
    rcases h.adr ⟨q, j⟩ a (by simp [addrOf, he, ha]) with ⟨i, _, h2⟩ | h1
    · simp [addrOf, hq] at h2
    · exact h1
  have hext := ext_loaded h.wf hq hb
  -- the new names
  let Γ' : Names := fun a => if a ∈ e.nodes then some (sB.heap.length + e.nodes.idxOf a) else Γ a
  have hnew : ∀ j a, e.nodes[j]? = some a → Γ' a = some (sB.heap.length + j) := by
    intro j a ha
    have hm : a ∈ e.nodes := List.mem_of_getElem? ha
    have hi := List.idxOf_lt_length_of_mem hm
    have h1 : e.nodes[e.nodes.idxOf a]? = some a := by
      rw [List.getElem?_eq_getElem hi, List.getElem_idxOf]
    have h2 := (hp _ _ h1).2
    rw [(hp _ _ ha).2] at h2
    simp only [Option.some.injEq] at h2
    have := nm_inj h2
    simp only [Child.mk.injEq, true_and] at this
    simp only [Γ', if_pos hm, ← this]
  have hold : ∀ a, a ∉ e.nodes → Γ' a = Γ a := fun a ha => by simp only [Γ', if_neg ha]
  have hle : Γ.le Γ' := by
    intro a i ha
    rw [hold a ?_]
    · exact ha
    · intro hm
      obtain ⟨j, hj⟩ := List.getElem?_of_mem hm
      rw [(hp j a hj).1] at ha
      cases ha
  have hcase : ∀ a i, Γ' a = some i → (∃ j, e.nodes[j]? = some a ∧ i = sB.heap.length + j ∧ j < b.nodes.length) ∨
      (a ∉ e.nodes ∧ Γ a = some i) := by
    intro a i hi
    by_cases hm : a ∈ e.nodes
    · obtain ⟨j, hj⟩ := List.getElem?_of_mem hm
      rw [hnew j a hj] at hi
      simp only [Option.some.injEq] at hi
      exact .inl ⟨j, hj, hi.symm, by rw [← hl]; exact (List.getElem?_eq_some_iff.mp hj).1⟩
    · rw [hold a hm] at hi
      exact .inr ⟨hm, hi⟩
  have haddr : ∀ r i, addrOf sB r = some i → addrOf (loaded sB q b) r = some i := by
    intro r i hi
    unfold addrOf at hi ⊢
    cases hc : sB.cache r.seq with
    | none => simp [hc] at hi
    | some e0 => rw [hext.cache _ _ hc]; simpa [hc] using hi
  have herel : ERel Γ' e ⟨List.range' sB.heap.length b.nodes.length, b.key, b.value⟩ := by
    refine ⟨hk, hv, ?_⟩
    rw [List.forall₂_iff_get]
    refine ⟨by simp [hl], fun j h1 h2 => ?_⟩
    rw [hnew j _ (by simp)]
    simp
  refine ⟨Γ', hle, ⟨h.core, h.io, hext.wf, ?_, ?_, h.lt, ?_, ?_, h.ent, ?_, ?_⟩, herel⟩
  · intro a i hi
    rcases hcase a i hi with ⟨j, hj, rfl, hjl⟩ | ⟨_, h1⟩
    · refine ⟨b.nodes[j], ?_, ?_⟩
      · rw [h.cop a _ (hp j a hj).2 (hp j a hj).1, h.core]
        simp [nodeAt, hb, hjl]
      · show (sB.heap ++ b.nodes)[sB.heap.length + j]? = _
        rw [List.getElem?_append_right (by omega), Nat.add_sub_cancel_left, List.getElem?_eq_getElem hjl]
    · obtain ⟨n, h2, h3⟩ := h.dom a i h1
      refine ⟨n, h2, ?_⟩
      show (sB.heap ++ b.nodes)[i]? = _
      rw [List.getElem?_append_left (h.named h1).2, h3]
  · intro a a' i hi hi'
    rcases hcase a i hi with ⟨j, hj, e1, _⟩ | ⟨_, h1⟩ <;> rcases hcase a' i hi' with ⟨j', hj', e2, _⟩ | ⟨_, h2⟩
    · have : j = j' := by omega
      subst this
      rw [hj] at hj'
      cases hj'
      rfl
    · have := (h.named h2).2
      omega
    · have := (h.named h1).2
      omega
    · exact h.inj a a' i h1 h2
  · intro a r hr hn
    refine h.cop a r hr ?_
    cases hg : Γ a with
    | none => rfl
    | some i => rw [hle a i hg] at hn; cases hn
  · intro a r i hr hi
    rcases hcase a i hi with ⟨j, hj, rfl, hjl⟩ | ⟨_, h1⟩
    · have := (hp j a hj).2
      rw [hr] at this
      simp only [Option.some.injEq] at this
      have := nm_inj this
      subst this
      exact (addrOf_loaded_same rfl).mpr ⟨hjl, rfl⟩
    · exact haddr r i (h.own a r i hr h1)
  · intro r a ha
    by_cases hrq : r.seq = q
    · subst hrq
      have ha' : e.nodes[r.offset]? = some a := by simpa [addrOf, he] using ha
      exact .inl ⟨_, hnew _ _ ha', (addrOf_loaded_same rfl).mpr
        ⟨by rw [← hl]; exact (List.getElem?_eq_some_iff.mp ha').1, rfl⟩⟩
    · rcases h.adr r a ha with ⟨i, h1, h2⟩ | ⟨h1, h2⟩
      · exact .inl ⟨i, hle _ _ h1, haddr r i h2⟩
      · refine .inr ⟨?_, h2⟩
        rw [hold a ?_]
        · exact h1
        · intro hm
          obtain ⟨j, hj⟩ := List.getElem?_of_mem hm
          have := (hp j a hj).2
          rw [h2] at this
          simp only [Option.some.injEq] at this
          have := nm_inj this
          subst this
          exact hrq rfl
  · intro _ q' e' he'
    by_cases hqq : q' = q
    · subst hqq
      simp only [loaded, cacheInsert, if_true, Option.some.injEq] at he'
      subst he'
      exact ⟨e, he, herel⟩
    · simp only [loaded, cacheInsert, hqq, if_false] at he'
      obtain ⟨e1, h1, h2⟩ := h.has rfl q' e' he'
      exact ⟨e1, h1, h2.mono hle⟩

theorem Duo.growB (h : Duo base strict Γ Λ sA sB) (xs : List Node) :
    Duo base strict Γ Λ sA { sB with heap := sB.heap ++ xs } := by
  refine ⟨h.core, h.io, ?_, ?_, h.inj, h.lt, h.cop, h.own, h.ent, h.adr, h.has⟩
  · refine ⟨h.wf.rd, h.wf.ent, fun r a ha => ?_, h.wf.inj⟩
    have := h.wf.lt r a ha
    simp only [List.length_append]
    omega
  · intro a i hi
    obtain ⟨n, h1, h2⟩ := h.dom a i hi
    exact ⟨n, h1, by simp [List.getElem?_append_left (h.named hi).2, h2]⟩

theorem Duo.write (h : Duo base strict Γ Λ sA sB) {a i : Nat} (ha : Γ a = some i) (n : Node) :
    Duo base strict Γ Λ { sA with heap := sA.heap.set a n } { sB with heap := sB.heap.set i n } := by
  refine ⟨h.core, h.io, ?_, ?_, h.inj, ?_, ?_, h.own, h.ent, h.adr, h.has⟩
  · exact ⟨h.wf.rd, h.wf.ent, fun r a ha => by simpa using h.wf.lt r a ha, h.wf.inj⟩
  · intro a' i' hi
    obtain ⟨m, h1, h2⟩ := h.dom a' i' hi
    by_cases haa : a = a'
    · subst haa
      rw [ha] at hi
      cases hi
      refine ⟨n, ?_, ?_⟩
      · simp [List.getElem?_set, (h.named ha).1]
      · simp [List.getElem?_set, (h.named ha).2]
    · have : i ≠ i' := fun hii => haa (h.inj a a' i ha (hii ▸ hi))
      exact ⟨m, by simp [List.getElem?_set, haa, h1], by simp [List.getElem?_set, this, h2]⟩
  · intro a' i' hi
    simpa using h.lt a' i' hi
  · intro a' r hr hn
    have : a ≠ a' := by rintro rfl; rw [ha] at hn; cases hn
    rw [← h.cop a' r hr hn]
    simp [List.getElem?_set, this]

theorem Duo.alloc (h : Duo base strict Γ Λ sA sB) (n : Node) :
    ∃ Γ', Γ.le Γ' ∧ Γ' sA.heap.length = some sB.heap.length ∧
      Duo base strict Γ' Λ { sA with heap := sA.heap ++ [n] } { sB with heap := sB.heap ++ [n] } := by
  have hg := (h.grow [n]).growB [n]
  let Γ' : Names := fun a => if a = sA.heap.length then some sB.heap.length else Γ a
  have hnew : Γ' sA.heap.length = some sB.heap.length := if_pos rfl
  have hle : Γ.le Γ' := by
    intro a i ha
    have := (h.named ha).1
    simp only [Γ']
    rw [if_neg (by omega)]
    exact ha
  have hcase : ∀ a i, Γ' a = some i → (a = sA.heap.length ∧ i = sB.heap.length) ∨ Γ a = some i := by
    intro a i hi
    simp only [Γ'] at hi
    split at hi
    · rename_i hl
      simp only [Option.some.injEq] at hi
      exact .inl ⟨hl, hi.symm⟩
    · exact .inr hi
  refine ⟨Γ', hle, hnew, hg.core, hg.io, hg.wf, ?_, ?_, hg.lt, ?_, ?_, hg.ent, ?_, ?_⟩
  · intro a i hi
    rcases hcase a i hi with ⟨rfl, rfl⟩ | h1
    · exact ⟨n, by simp, by simp⟩
    · exact hg.dom a i h1
  · intro a a' i hi hi'
    rcases hcase a i hi with ⟨rfl, rfl⟩ | h1 <;> rcases hcase a' _ hi' with ⟨h2, h3⟩ | h2
    · exact h2.symm
    · have := (h.named h2).2; omega
    · have := (h.named h1).2; omega
    · exact h.inj a a' i h1 h2
  · intro a r hr hn
    refine hg.cop a r hr ?_
    cases hgg : Γ a with
    | none => rfl
    | some i => rw [hle a i hgg] at hn; cases hn
  · intro a r i hr hi
    rcases hcase a i hi with ⟨rfl, rfl⟩ | h1
    · have := h.lt _ _ hr; omega
    · exact h.own a r i hr h1
  · intro r a ha
    rcases h.adr r a ha with ⟨i, h1, h2⟩ | ⟨h1, h2⟩
    · exact .inl ⟨i, hle _ _ h1, h2⟩
    · refine .inr ⟨?_, h2⟩
      have := h.lt _ _ h2
      simp only [Γ']
      rw [if_neg (by omega)]
      exact h1
  · intro ht q e' he'
    obtain ⟨e, h1, h2⟩ := h.has ht q e' he'
    exact ⟨e, h1, h2.mono hle⟩

theorem Duo.append (h : Duo base strict Γ Λ sA sB) (x : Bytes) :
    Duo base strict Γ Λ { sA with core := sA.core ++ [x] } { sB with core := sB.core ++ [x] } := by
  refine ⟨by simp [h.core], h.io, h.wf.append [x], h.dom, h.inj, h.lt, ?_, h.own, ?_, h.adr, h.has⟩
  · intro a r hr hn
    have h1 := h.cop a r hr hn
    have h2 := List.getElem?_eq_getElem (h.lt a _ hr)
    rw [h1] at h2
    rw [h1]
    have hlt : r.seq < sA.core.length := by
      obtain ⟨b, hb, _⟩ := nodeAt_block h2
      exact blockAt_lt hb
    exact (nodeAt_append hlt [x]).symm
  · intro q e he
    obtain ⟨b, hb, hh⟩ := h.ent q e he
    exact ⟨b, blockAt_append_some hb _, hh⟩

/-! ## Beginning and end -/

theorem duo_start {s : St} (h : SWF s) (base : Nat) (strict : Bool) :
    Duo base strict (fun a => if a < s.heap.length then some a else none) (fun _ => none) s s := by
  refine ⟨rfl, rfl, h, ?_, ?_, fun _ _ h => (by cases h), fun _ _ h => (by cases h), fun _ _ _ h => (by cases h),
    h.ent, ?_, ?_⟩
  · intro a i hi
    split at hi
    · rename_i hlt
      cases hi
      exact ⟨s.heap[a], List.getElem?_eq_getElem hlt, List.getElem?_eq_getElem hlt⟩
    · cases hi
  · intro a a' i hi hi'
    split at hi <;> split at hi' <;> simp_all
  · intro r a ha
    exact .inl ⟨a, if_pos (h.lt r a ha), ha⟩
  · intro _ q e he
    refine ⟨e, he, rfl, rfl, ?_⟩
    rw [List.forall₂_same]
    intro a hm
    exact if_pos (h.rooms q e he a hm)

/-- The handle shows what the other shows. -/
theorem Duo.holds (h : Duo base strict Γ Λ sA sB) {d : Db} (hB : Holds sB d) : Holds sA d := by
  have hwf : SWF sA := by
    refine ⟨fun q => by rw [h.io]; exact h.wf.rd q, h.ent, ?_, ?_⟩
    · intro r a ha
      rcases h.adr r a ha with ⟨i, h1, _⟩ | ⟨_, h2⟩
      · exact (h.named h1).1
      · exact h.lt _ _ h2
    · intro r r' a ha ha'
      rcases h.adr r a ha with ⟨i, h1, h2⟩ | ⟨h1, h2⟩ <;> rcases h.adr r' a ha' with ⟨i', h1', h2'⟩ | ⟨h1', h2'⟩
      · rw [h1] at h1'
        cases h1'
        exact h.wf.inj r r' i h2 h2'
      · rw [h1] at h1'; cases h1'
      · rw [h1] at h1'; cases h1'
      · rw [h2] at h2'
        simp only [Option.some.injEq] at h2'
        exact nm_inj h2'
  refine ⟨hwf, by rw [h.io]; exact hB.ok, by rw [h.core]; exact hB.ver, ?_⟩
  rcases hB.store with hb | ⟨H, t, h1, h2, h3⟩
  · exact .inl (by rw [h.core]; exact hb)
  · refine .inr ⟨H, t, by rw [h.core]; exact h1, ?_, by rw [h.core]; exact h3⟩
    intro r hr a ha
    rcases h.adr r a ha with ⟨i, g1, g2⟩ | ⟨g1, g2⟩
    · obtain ⟨n, k1, k2⟩ := h.dom a i g1
      rw [k1, ← k2, h.core]
      exact h2 r hr i g2
    · exact h.cop a r g2 g1

end Hyperbee
