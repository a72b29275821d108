import Verif.Proof.DuetDel
import Verif.Proof.Honest
/-!
# A write that runs while others read
-/

namespace Hyperbee

variable {base : Nat}

/-! ## Inserting, with its search -/

/-- What an insertion does once it has found its place (src/put.rs:113-188). -/
def putRest (k : Bytes) (v : Option Bytes) (cas : Option KeyValueData → KeyValueData → Bool) (q : Nat) (m : Option Nat)
    (p : NodePath) (o : Option KeyValueData) : Prog (Prepared (Option Nat × Option Nat)) :=
  if cas o ⟨q, k, v⟩ = false then Pure.pure (.done (m, none))
  else do
    let ch ← Prog.putLoop m.isSome p (Changes.new q k v) q []
    Pure.pure (.commit ch (m, some q))

theorem twin_putRest {strict : Bool} {Γ : Names} (k : Bytes) (v : Option Bytes) (cas : Option KeyValueData → KeyValueData → Bool)
    (q : Nat) (m : Option Nat) {p p' : NodePath} (hp : PathR Γ p p') (o : Option KeyValueData) :
    Twin (Duo base strict) (putRest k v cas q m p o) (putRest k v cas q m p' o) Γ PreparedR := by
  unfold putRest
  split
  · exact Twin.pure rfl
  · refine Twin.bind (twin_putLoop _ _ _ _ _ _ _ _ hp (ChangesR.new _ _ _ _)) fun Γ3 ch ch' h3 hch => ?_
    exact Twin.pure ⟨hch, rfl⟩

theorem twin_putPrepare {Γ : Names} (k : Bytes) (v : Option Bytes) (cas : Option KeyValueData → KeyValueData → Bool) :
    Twin (Duo base true) (Prog.putPrepare k v cas) (Prog.putPrepare k v cas) Γ PreparedR := by
  unfold Prog.putPrepare
  refine Twin.bind (twin_getRoot true) fun Γ1 r r' h1 hr => ?_
  refine Twin.bind twin_version fun Γ2 q q' h2 hq => ?_
  cases hq
  dsimp only
  cases hr with
  | none =>
    dsimp only
    split
    · exact Twin.pure rfl
    · refine Twin.bind (twin_putLoop _ _ _ _ _ _ _ _ .nil (ChangesR.new _ _ _ _)) fun Γ3 ch ch' h3 hch => ?_
      exact Twin.pure ⟨hch, rfl⟩
  | some hr =>
    dsimp only
    refine Twin.bind (twin_nearestNode (h2 _ _ hr) _) fun Γ3 x x' h3 hx => ?_
    obtain ⟨m, p⟩ := x
    obtain ⟨m', p'⟩ := x'
    obtain ⟨hm, hp⟩ := hx
    dsimp only at hm hp ⊢
    subst hm
    split
    · refine Twin.bind (twin_head hp) fun Γ4 y y' h4 hy => ?_
      obtain ⟨a, j⟩ := y
      obtain ⟨i, j'⟩ := y'
      obtain ⟨hy, hj⟩ := hy
      dsimp only at hy hj ⊢
      subst hj
      refine Twin.bind (twin_getKeyValue hy _) fun Γ5 kv kv' h5 hkv => ?_
      cases hkv
      exact twin_putRest k v cas q m (hp.mono (h4.trans h5)) (some kv)
    · exact twin_putRest k v cas q m hp none

theorem twin_putCas {Γ : Names} (k : Bytes) (v : Option Bytes) (cas : Option KeyValueData → KeyValueData → Bool) :
    Twin (Duo base true) (Prog.putCompareAndSwap k v cas) (Prog.putCompareAndSwap k v cas) Γ EqR := by
  unfold Prog.putCompareAndSwap
  exact Twin.bind (twin_putPrepare k v cas) fun Γ1 p p' h1 hp => twin_commit hp

theorem twin_put {Γ : Names} (k : Bytes) (v : Option Bytes) :
    Twin (Duo base true) (Prog.put k v) (Prog.put k v) Γ EqR := by
  unfold Prog.put
  refine Twin.bind (twin_putCas k v _) fun Γ1 r r' h1 hr => ?_
  cases hr
  obtain ⟨o, n⟩ := r
  dsimp only
  refine Twin.bind Twin.orPanic_eq fun Γ2 n n' h2 hn => ?_
  cases hn
  exact Twin.eq

theorem twin_exec {Γ : Names} {c : Cmd} (hc : c.looks = false) (hr : c ≠ .reopen) :
    Twin (Duo base true) (Prog.exec c) (Prog.exec c) Γ EqR := by
  cases c with
  | put k v => exact twin_replyOf (twin_put k v)
  | putCas k v cas => exact twin_replyOf (twin_putCas k v cas)
  | del k => exact twin_replyOf (twin_del k)
  | delCas k cas => exact twin_replyOf (twin_delCas k cas)
  | createHeader m => exact twin_replyOf (twin_createHeader m)
  | reopen => exact absurd rfl hr
  | _ => cases hc

/-! ## Among readers -/

theorem Duo.loose {strict : Bool} {Γ Λ : Names} {sA sB : St} (h : Duo base strict Γ Λ sA sB) :
    Duo base false Γ Λ sA sB :=
  ⟨h.core, h.io, h.wf, h.dom, h.inj, h.lt, h.cop, h.own, h.ent, h.adr, fun h => by cases h⟩

theorem duo_files (Open : Nat → Prop) (strict : Bool) (Γ : Names) (sB : St) :
    Files base Open strict (fun Λ s => Duo base strict Γ Λ s sB ∧ ∀ q, s.cache q = none → Open q) where
  rd h q := by rw [h.1.io]; exact h.1.wf.rd q
  miss h hq := h.2 _ hq
  grow h xs := ⟨h.1.grow xs, h.2⟩
  load h _ hb := ⟨(h.1.load hb).1, (h.1.load hb).2, h.2⟩
  file {Γ s q b e} h ho hb he hs := by
    refine ⟨h.1.file hb he fun ht => ?_, fun q' hq' => ?_⟩
    · cases hq : sB.cache q with
      | none => rfl
      | some e' =>
        obtain ⟨e, h1, _⟩ := h.1.has ht _ e' hq
        rw [hs ht] at h1
        cases h1
    · have hq' : cacheInsert q e s.cache q' = none := hq'
      unfold cacheInsert at hq'
      split at hq'
      · cases hq'
      · exact h.2 q' hq'

/-- What is in the cache stays there. -/
theorem cache_stays (x : Atom β) {s : St} {q : Nat} (h : (x.run s).2.cache q = none) : s.cache q = none := by
  induction x with
  | version => exact h
  | descentFuel => exact h
  | cacheGet q => exact h
  | coreFetch q => rwa [show (Atom.coreFetch q).run = getFromCore q from rfl, (fetch_heapOnly q s).2] at h
  | cacheInsert q' e =>
    have h : cacheInsert q' e s.cache q = none := h
    unfold cacheInsert at h
    split at h
    · cases h
    · exact h
  | readNode a => rwa [show (Atom.readNode a).run = readNode a from rfl, (HeapOnly.readNode a s).2] at h
  | edit md a f => rwa [show (Atom.edit md a f).run = edit a f from rfl, (heapOnly_edit a f s).2] at h
  | lockChildren a => exact h
  | moveChildren l r n => rwa [show (Atom.moveChildren l r n).run = Side.moveChildren l r n from rfl, (heapOnly_move l r n s).2] at h
  | alloc n => exact h
  | coreAppend b =>
    have h : (Hyperbee.coreAppend b s).2.cache q = none := h
    unfold Hyperbee.coreAppend at h
    split at h <;> exact h
  | under a md x ih => exact ih h

theorem Prog.next_cache (p : Prog α) {s : St} {q : Nat} (h : (p.next s).2.cache q = none) : s.cache q = none := by
  cases p with
  | pure a => exact h
  | throw e => exact h
  | step x k => exact cache_stays x h

/-- Once the write is through, what readers do makes no difference. -/
theorem among_done {Open : Nat → Prop} {w : Nat} {Γ : Names} {sB : St} : ∀ (sched : List Nat) (ps : List (Prog α)) (s : St) (Λ : Names) (a : α),
    ps[w]? = some (.pure a) → Duo base false Γ Λ s sB → (∀ q, s.cache q = none → Open q) →
    (∀ j p, j ≠ w → ps[j]? = some p → Fetching base Open p Λ s.core) →
    (Prog.interleave sched ps s).1[w]? = some (.pure a) ∧ ∃ Λ', Duo base false Γ Λ' (Prog.interleave sched ps s).2 sB := by
  intro sched
  induction sched with
  | nil => exact fun ps s Λ a hw hd _ _ => ⟨hw, Λ, hd⟩
  | cons i is ih =>
    intro ps s Λ a hw hd ho hps
    simp only [Prog.interleave]
    cases hi : ps[i]? with
    | none => exact ih ps s Λ a hw hd ho hps
    | some p =>
      dsimp only
      have hlt := (List.getElem?_eq_some_iff.mp hi).1
      by_cases hiw : i = w
      · subst hiw
        rw [hw] at hi
        cases hi
        refine ih _ _ Λ a (by rw [List.getElem?_set_self hlt]; rfl) hd ho fun j q hj hq => hps j q hj ?_
        rwa [List.getElem?_set_ne (Ne.symm hj)] at hq
      · obtain ⟨Λ', h1, h2, h3, h4⟩ := (hps i p hiw hi).next (duo_files Open false Γ sB) ⟨hd, ho⟩ (fun h => by cases h)
        refine ih _ _ Λ' a (by rw [List.getElem?_set_ne hiw]; exact hw) h2.1 h2.2 fun j q hj hq => ?_
        by_cases hij : i = j
        · subst hij
          rw [List.getElem?_set_self hlt] at hq
          cases hq
          exact h4
        · rw [List.getElem?_set_ne hij] at hq
          exact (hps j q hj hq).mono h1 (by rw [h3]; exact List.prefix_refl _)

/-- One program writes, the others read. -/
theorem among_run {Open : Nat → Prop} {strict : Bool} {w : Nat} {Q : St → Names → Except Err α → Prop} :
    ∀ (sched : List Nat) (ps : List (Prog α)) (s : St) (Γ Λ : Names) (sB : St) (p : Prog α),
    ps[w]? = some p → Duo base strict Γ Λ s sB → (∀ q, s.cache q = none → Open q) → Duet (Duo base strict) p sB Γ Λ Q →
    (∀ j p, j ≠ w → ps[j]? = some p → Fetching base Open p Λ s.core) →
    (strict = true → Prog.overtaken w sched ps s = false) →
    ∀ a, (Prog.interleave sched ps s).1[w]? = some (.pure a) →
    ∃ sB' Γ' Λ', Q sB' Γ' (.ok a) ∧ Duo base false Γ' Λ' (Prog.interleave sched ps s).2 sB' := by
  intro sched
  induction sched with
  | nil =>
    intro ps s Γ Λ sB p hw hd _ hq _ _ a ha
    simp only [Prog.interleave] at ha
    rw [hw] at ha
    cases ha
    exact ⟨sB, Γ, Λ, hq, hd.loose⟩
  | cons i is ih =>
    intro ps s Γ Λ sB p hw hd ho hq hps hov a ha
    cases hres : p.result with
    | some b =>
      cases p with
      | step x k => cases hres
      | throw e => cases hres
      | pure b' =>
        obtain ⟨h1, Λ', h2⟩ := among_done (i :: is) ps s Λ b' hw hd.loose ho hps
        rw [h1] at ha
        cases ha
        exact ⟨sB, Γ, Λ', hq, h2⟩
    | none =>
    simp only [Prog.interleave] at ha ⊢
    simp only [Prog.overtaken] at hov
    cases hi : ps[i]? with
    | none =>
      rw [hi] at ha hov
      exact ih ps s Γ Λ sB p hw hd ho hq hps hov a ha
    | some p' =>
      rw [hi] at ha hov
      dsimp only at ha hov ⊢
      have hlt := (List.getElem?_eq_some_iff.mp hi).1
      by_cases hiw : i = w
      · subst hiw
        rw [hw] at hi
        cases hi
        obtain ⟨sB', Γ', Λ', h1, h2, h3, h4⟩ := hq.next hd
        refine ih _ _ Γ' Λ' sB' _ (List.getElem?_set_self hlt) h3 (fun q hq => ho q (p.next_cache hq)) h4 (fun j q hj hq => ?_)
          (fun ht => by have := hov ht; simp only [Bool.or_eq_false_iff] at this; exact this.2) a ha
        rw [List.getElem?_set_ne (Ne.symm hj)] at hq
        exact (hps j q hj hq).mono h2 (Prog.next_grows p s)
      · have hlate : strict = true → ∀ q, p'.files = some q → s.cache q = none := by
          intro ht q hf
          have h1 := hov ht
          simp only [Bool.or_eq_false_iff] at h1
          have h2 := h1.1
          rw [hw] at h2
          simp only [Option.bind_some, hres, Option.isNone_none, Bool.true_and, Prog.late, hf] at h2
          have h3 : (i != w) = true := by simpa using hiw
          rw [h3] at h2
          cases hc : s.cache q with
          | none => rfl
          | some e => rw [hc] at h2; cases h2
        obtain ⟨Λ', h1, h2, h3, h4⟩ := (hps i p' hiw hi).next (duo_files Open strict Γ sB) ⟨hd, ho⟩ hlate
        refine ih _ _ Γ Λ' sB p (by rw [List.getElem?_set_ne hiw]; exact hw) h2.1 h2.2 (hq.mono h1) (fun j q hj hq => ?_)
          (fun ht => by have := hov ht; simp only [Bool.or_eq_false_iff] at this; exact this.2) a ha
        by_cases hij : i = j
        · subst hij
          rw [List.getElem?_set_self hlt] at hq
          cases hq
          exact h4
        · rw [List.getElem?_set_ne hij] at hq
          exact (hps j q hj hq).mono h1 (by rw [h3]; exact List.prefix_refl _)

/-- A write that ends as it does alone leaves the handle as it does alone. -/
theorem among_twin {strict : Bool} {w : Nat} {s : St} {d : Db} (hs : Holds s d) {c : Cmd}
    (hr : c ≠ .reopen) {Γ Λ : Names} (hd : Duo base strict Γ Λ s s)
    (ht : Twin (Duo base strict) (Prog.exec c) (Prog.exec c) Γ EqR) (sched : List Nat) (ps : List (Prog Reply))
    (hw : ps[w]? = some (Prog.exec c)) (hps : ∀ j p, j ≠ w → ps[j]? = some p → Loader _ p)
    (hov : strict = true → Prog.overtaken w sched ps s = false) (r : Reply)
    (hres : (Prog.interleave sched ps s).1[w]? = some (.pure r)) :
    r = (exec c s).1 ∧ (Prog.interleave sched ps s).2.core = (exec c s).2.core ∧
      Holds (Prog.interleave sched ps s).2 (d.next c) := by
  obtain ⟨sB', Γ', Λ', ⟨h1, h2⟩, h3⟩ := among_run (Open := fun _ => True) sched ps s Γ Λ s (Prog.exec c) hw hd (fun _ _ => trivial) (ht s Λ)
    (fun j p hj hp => (hps j p hj hp).safe _ _ _ _) hov r hres
  rw [run_exec c hr] at h1 h2
  subst h1
  exact ⟨h2, h3.core, h3.holds (exec_refines hs c).2⟩

end Hyperbee
