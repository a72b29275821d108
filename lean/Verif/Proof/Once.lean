import Verif.SpecSteps
import Verif.Proof.SubAsync
import Verif.Proof.DuetRun
import Verif.Proof.Fault
import Verif.Proof.CostWrite
/-!
# How often a block is decoded
-/

namespace Hyperbee

/-- A future that never decodes a block of `E`, nor one twice, as long as the blocks of `F` are in the
cache when it goes on; when it ends, what it decoded is in the cache.  It files nothing else there. -/
def Thrifty : (Nat → Prop) → (Nat → Prop) → Prog α → Prop
  | E, F, .pure _ => ∀ q, E q → F q
  | E, F, .throw _ => ∀ q, E q → F q
  | E, F, .step x k => ∀ s, (∀ q, F q → s.cache q ≠ none) →
    (∀ q ∈ x.decodes s, ¬ E q) ∧ (x.decodes s).Nodup ∧
    (∀ q, (x.run s).2.cache q ≠ none → s.cache q ≠ none ∨ E q) ∧
    ∃ F' : Nat → Prop, (∀ q, F' q → (x.run s).2.cache q ≠ none) ∧
      Thrifty (fun q => E q ∨ q ∈ x.decodes s) F' (k (x.run s).1)

/-- Whatever was decoded before, if that is in the cache. -/
def Good1 (α : Type) (p : Prog α) : Prop := ∀ E F : Nat → Prop, (∀ q, E q → F q) → Thrifty E F p

theorem Thrifty.bind {p : Prog α} {f : α → Prog β} (hf : ∀ a, Good1 β (f a)) : ∀ {E F : Nat → Prop}, Thrifty E F p →
    Thrifty E F (p >>= f) := by
  induction p with
  | pure a => exact fun h => hf a _ _ h
  | throw e => exact fun h => h
  | step x k ih =>
    intro E F h s hs
    obtain ⟨h1, h2, h0, F', h3, h4⟩ := h s hs
    exact ⟨h1, h2, h0, F', h3, ih _ h4⟩

theorem Thrifty.under {p : Prog α} (a : Addr) (m : Mode) : ∀ {E F : Nat → Prop}, Thrifty E F p → Thrifty E F (p.under a m) := by
  induction p with
  | pure a => exact fun h => h
  | throw e => exact fun h => h
  | step x k ih =>
    intro E F h s hs
    obtain ⟨h1, h2, h0, F', h3, h4⟩ := h s hs
    exact ⟨h1, h2, h0, F', h3, ih _ h4⟩

theorem Thrifty.tryResult {p : Prog α} : ∀ {E F : Nat → Prop}, Thrifty E F p → Thrifty E F p.tryResult := by
  induction p with
  | pure a => exact fun h => h
  | throw e => cases e <;> exact fun h => h
  | step x k ih =>
    intro E F h s hs
    obtain ⟨h1, h2, h0, F', h3, h4⟩ := h s hs
    exact ⟨h1, h2, h0, F', h3, ih _ h4⟩

theorem Thrifty.catchExists {p : Prog Nat} : ∀ {E F : Nat → Prop}, Thrifty E F p → Thrifty E F p.catchExists := by
  induction p with
  | pure a => exact fun h => h
  | throw e => cases e <;> exact fun h => h
  | step x k ih =>
    intro E F h s hs
    obtain ⟨h1, h2, h0, F', h3, h4⟩ := h s hs
    exact ⟨h1, h2, h0, F', h3, ih _ h4⟩

theorem Thrifty.replyOf {p : Prog α} (f : α → Reply) : ∀ {E F : Nat → Prop}, Thrifty E F p → Thrifty E F (p.replyOf f) := by
  induction p with
  | pure a => exact fun h => h
  | throw e => exact fun h => h
  | step x k ih =>
    intro E F h s hs
    obtain ⟨h1, h2, h0, F', h3, h4⟩ := h s hs
    exact ⟨h1, h2, h0, F', h3, ih _ h4⟩

/-- A step that fetches nothing. -/
theorem good1_lift (x : Atom β) (h : ∀ s, x.decodes s = []) (hc : ∀ s, (x.run s).2.cache = s.cache) : Good1 _ (Prog.lift x) := by
  intro E F hEF s hs
  rw [h s]
  refine ⟨by simp, List.nodup_nil, fun q hq => .inl (hc s ▸ hq), F, fun q hq hc => hs q hq (cache_stays x hc), ?_⟩
  simp only [List.not_mem_nil, or_false]
  cases (x.run s).1 <;> exact hEF

theorem good1_blocksGet (q : Nat) : Good1 _ (Prog.blocksGet q) := by
  intro E F hEF
  unfold Prog.blocksGet
  intro s hs
  rw [show (Atom.cacheGet q).decodes s = [] from rfl]
  refine ⟨by simp, List.nodup_nil, fun q hq => .inl hq, F, fun q hq hc => hs q hq (cache_stays (.cacheGet _) hc), ?_⟩
  simp only [List.not_mem_nil, or_false]
  have hget : (Atom.cacheGet q).run s = (.ok (s.cache q), s) := rfl
  rw [hget]
  cases hq : s.cache q with
  | some e => exact hEF
  | none =>
    have hE : ¬ E q := fun h => hs q (hEF q h) hq
    intro s1 hs1
    refine ⟨?_, ?_, fun q' hq' => .inl ?_, F, fun q hq hc => hs1 q hq (cache_stays (.coreFetch _) hc), ?_⟩
    · intro q' hq'
      simp only [Atom.decodes] at hq'
      split at hq'
      · simp only [List.mem_singleton] at hq'; subst hq'; exact hE
      · cases hq'
    · simp only [Atom.decodes]
      split <;> simp
    · rwa [show (Atom.coreFetch q).run = getFromCore q from rfl, (fetch_heapOnly q s1).2] at hq'
    · have hrun : ((Atom.coreFetch q).run s1).1 = (getFromCore q s1).1 := rfl
      rw [hrun]
      simp only [Atom.decodes]
      cases (getFromCore q s1).1 with
      | error e => exact fun q hq => hEF q (by simpa using hq)
      | ok o =>
        cases o with
        | none => exact fun q hq => hEF q (by simpa using hq)
        | some e =>
          intro s2 hs2
          rw [show (Atom.cacheInsert q e).decodes s2 = [] from rfl]
          refine ⟨by simp, List.nodup_nil, ?_, fun q' => F q' ∨ q' = q, ?_, ?_⟩
          · intro q' hq'
            have hq' : cacheInsert q e s2.cache q' ≠ none := hq'
            unfold cacheInsert at hq'
            split at hq'
            · rename_i he
              exact .inr (.inr (by simp [he]))
            · exact .inl hq'
          · rintro q' (h | rfl) hc
            · exact hs2 q' h (cache_stays (.cacheInsert _ _) hc)
            · exact absurd hc (by simp [Atom.run, modifySt, cacheInsert])
          · simp only [List.not_mem_nil, or_false, List.mem_singleton]
            rintro q' (h | h)
            · exact .inl (hEF q' h)
            · exact .inr h

theorem good1_orPanic (site : String) (o : Option α) : Good1 α (Prog.orPanic site o) := by
  intro E F h; cases o <;> exact h

theorem good1_bind {p : Prog α} {f : α → Prog β} (h : Good1 α p) (hf : ∀ a, Good1 β (f a)) : Good1 β (p >>= f) :=
  fun E F hEF => (h E F hEF).bind hf

theorem good1_acts : DActs Good1 where
  pure _ := fun _ _ h => h
  throw _ := fun _ _ h => h
  bind := good1_bind
  readNode a := good1_lift _ (fun _ => rfl) fun s => (HeapOnly.readNode a s).2
  edit _ a f := good1_lift _ (fun _ => rfl) fun s => (heapOnly_edit a f s).2
  getChild a _ := good1_bind (good1_lift _ (fun _ => rfl) fun s => (HeapOnly.readNode a s).2) fun _ E F h => Thrifty.under _ _
    (good1_bind (good1_orPanic _ _) (fun _ => good1_bind (good1_blocksGet _) fun _ => good1_orPanic _ _) E F h)
  getKeyValue a _ := by
    unfold Prog.getKeyValue
    refine good1_bind (good1_lift _ (fun _ => rfl) fun s => (HeapOnly.readNode a s).2) fun _ E F h => Thrifty.under _ _ ?_
    refine good1_bind (good1_orPanic _ _) (fun _ => ?_) E F h
    exact good1_bind (good1_blocksGet _) fun _ => good1_bind (good1_blocksGet _) fun _ _ _ h => h
  alloc _ := good1_lift _ (fun _ => rfl) fun _ => rfl
  version := good1_lift _ (fun _ => rfl) fun _ => rfl
  descentFuel := good1_lift _ (fun _ => rfl) fun _ => rfl
  blocksGet := good1_blocksGet
  moveChildren l r n := good1_bind (good1_lift _ (fun _ => rfl) fun _ => rfl) fun _ E F h => Thrifty.under _ _
    (good1_lift (.moveChildren l r n) (fun _ => rfl) (fun s => (heapOnly_move l r n s).2) E F h)

theorem good1_append (b : Bytes) : Good1 _ (Prog.coreAppend b) :=
  good1_lift _ (fun _ => rfl) fun s => Frees.coreAppend b s

theorem good1_ensure : Good1 _ Prog.ensureHeader := fun E F h =>
  (good1_acts.toPActs.createHeader_ good1_append none E F h).catchExists

theorem good1_try {α : Type} {p : Prog α} (h : Good1 α p) : Good1 _ p.tryResult := fun E F hEF => (h E F hEF).tryResult

theorem good1_read (a : Addr) : Good1 _ (Prog.under a .read (Prog.readNode a)) := fun E F h =>
  (good1_acts.readNode a E F h).under a .read

theorem good1_reply {α : Type} {p : Prog α} (f : α → Reply) (h : Good1 α p) : Good1 _ (p.replyOf f) := fun E F hEF =>
  (h E F hEF).replyOf f

theorem good1_execVia (x : Option Prefixed × Cmd) : Good1 _ (Prog.execVia x) := by
  have key : ∀ c, Good1 _ (Prog.exec c) := by
    intro c
    cases c with
    | version => exact good1_reply _ good1_acts.version
    | get k => exact good1_reply _ (good1_acts.toRActs.get_ k)
    | put k v => exact good1_reply _ (good1_acts.toPActs.put_ good1_append good1_ensure k v)
    | putCas k v cas => exact good1_reply _ (good1_acts.toPActs.putCas_ good1_append good1_ensure k v cas)
    | del k => exact good1_reply _ (good1_acts.del_ good1_append k)
    | delCas k cas => exact good1_reply _ (good1_acts.delCas_ good1_append k cas)
    | createHeader m => exact good1_reply _ (good1_acts.toPActs.createHeader_ good1_append m)
    | traverse b rs => exact good1_reply _ (good1_acts.toRActs.traverseSession_ good1_try good1_read b rs)
    | reopen => exact fun _ _ h => h
  obtain ⟨o, c⟩ := x
  cases o with
  | none => exact key c
  | some p =>
    cases c with
    | version => exact key .version
    | get k => exact key (.get (p.withKeyPrefix k))
    | put k v => exact key (.put (p.withKeyPrefix k) v)
    | putCas k v cas => exact key (.putCas (p.withKeyPrefix k) v cas)
    | del k => exact key (.del (p.withKeyPrefix k))
    | delCas k cas => exact key (.delCas (p.withKeyPrefix k) cas)
    | createHeader m => exact key (.createHeader m)
    | reopen => exact key .reopen
    | traverse b rs =>
      refine good1_reply _ ?_
      unfold Prog.subTraverse
      cases b.build with
      | error e => exact fun _ _ h => h
      | ok conf =>
        exact good1_bind (good1_acts.toRActs.traverse_ _) fun fs =>
          good1_bind (good1_acts.toRActs.drive_ good1_try good1_read (good1_acts.toRActs.strip_ p) rs fs) fun _ _ _ h => h

/-- A run to the end. -/
theorem Thrifty.run {p : Prog α} : ∀ {E F : Nat → Prop} {s : St}, Thrifty E F p → (∀ q, F q → s.cache q ≠ none) →
    (∀ q ∈ p.decodes s, ¬ E q) ∧ (p.decodes s).Nodup ∧ (∀ q, E q ∨ q ∈ p.decodes s → (p.run s).2.cache q ≠ none) ∧
      ∀ q, (p.run s).2.cache q ≠ none → s.cache q ≠ none ∨ E q ∨ q ∈ p.decodes s := by
  induction p with
  | pure a => intro E F s h hs; exact ⟨by simp [Prog.decodes], List.nodup_nil, fun q hq => hs q (h q (by simpa [Prog.decodes] using hq)), fun q hq => .inl hq⟩
  | throw e => intro E F s h hs; exact ⟨by simp [Prog.decodes], List.nodup_nil, fun q hq => hs q (h q (by simpa [Prog.decodes] using hq)), fun q hq => .inl hq⟩
  | step x k ih =>
    intro E F s h hs
    obtain ⟨h1, h2, h0, F', h3, h4⟩ := h s hs
    obtain ⟨i1, i2, i3, i4⟩ := ih _ h4 h3
    simp only [Prog.decodes, List.mem_append]
    refine ⟨?_, ?_, ?_, ?_⟩
    · rintro q (hq | hq)
      · exact h1 q hq
      · exact fun hE => i1 q hq (.inl hE)
    · exact List.nodup_append.mpr ⟨h2, i2, fun a ha b hb hab => i1 b hb (.inr (hab ▸ ha))⟩
    · intro q hq
      refine i3 q ?_
      rcases hq with hq | hq | hq
      · exact .inl (.inl hq)
      · exact .inl (.inr hq)
      · exact .inr hq
    · intro q hq
      rcases i4 q hq with h | (h | h) | h
      · exact (h0 q h).imp id .inl
      · exact .inr (.inl h)
      · exact .inr (.inr (.inl h))
      · exact .inr (.inr (.inr h))

/-- Overlapping runs. -/
theorem Thrifty.interleave : ∀ (sched : List Nat) (ps : List (Prog α)) (s : St) (E F : Nat → Nat → Prop),
    (∀ i p, ps[i]? = some p → Thrifty (E i) (F i) p) → (∀ i q, F i q → s.cache q ≠ none) →
    (Prog.decodedIn sched ps s).Nodup ∧ ∀ i q, (i, q) ∈ Prog.decodedIn sched ps s → ¬ E i q := by
  intro sched
  induction sched with
  | nil => intro ps s E F _ _; exact ⟨List.nodup_nil, by simp [Prog.decodedIn]⟩
  | cons i is ih =>
    intro ps s E F hp hs
    unfold Prog.decodedIn
    cases hi : ps[i]? with
    | none => exact ih ps s E F hp hs
    | some p =>
      dsimp only
      have hlt : i < ps.length := (List.getElem?_eq_some_iff.mp hi).1
      have hset : ∀ p', ps[i]? = some p → p' = p → ps.set i p' = ps := by
        intro p' h e
        subst e
        apply List.ext_getElem? 
        intro j
        by_cases hj : i = j
        · subst hj; rw [List.getElem?_set_self hlt, h]
        · rw [List.getElem?_set_ne hj]
      have hfr := hp i p hi
      cases p with
      | pure a =>
        simp only [Prog.next, List.nil_append]
        rw [hset _ hi rfl]
        exact ih ps s E F hp hs
      | throw e =>
        simp only [Prog.next, List.nil_append]
        rw [hset _ hi rfl]
        exact ih ps s E F hp hs
      | step x k =>
        obtain ⟨h1, h2, h0, F', h3, h4⟩ := hfr s (hs i)
        simp only [Prog.next]
        obtain ⟨j1, j2⟩ := ih (ps.set i (k (x.run s).1)) (x.run s).2
          (fun j => if j = i then fun q => E i q ∨ q ∈ x.decodes s else E j) (fun j => if j = i then F' else F j) (by
            intro j p hj
            by_cases hji : j = i
            · subst hji
              rw [List.getElem?_set_self hlt] at hj
              cases hj
              simpa using h4
            · rw [List.getElem?_set_ne (Ne.symm hji)] at hj
              simpa [hji] using hp j p hj) (by
            intro j q hq
            by_cases hji : j = i
            · subst hji
              simp only [if_true] at hq
              exact h3 q hq
            · simp only [hji, if_false] at hq
              exact fun hc => hs j q hq (cache_stays x hc))
        refine ⟨List.nodup_append.mpr ⟨?_, j1, ?_⟩, ?_⟩
        · exact h2.map (fun a b h => (Prod.mk.inj h).2)
        · rintro ⟨a, b⟩ hab ⟨a', b'⟩ hab' he
          cases he
          obtain ⟨q, hq, he⟩ := List.mem_map.mp hab
          cases he
          have := j2 i _ hab'
          simp only [if_true] at this
          exact this (.inr hq)
        · intro j q hjq
          rcases List.mem_append.mp hjq with h | h
          · obtain ⟨q', hq', he⟩ := List.mem_map.mp h
            cases he
            exact h1 _ hq'
          · have := j2 j q h
            by_cases hji : j = i
            · subst hji
              simp only [if_true] at this
              exact fun hE => this (.inl hE)
            · simpa [hji] using this

end Hyperbee
