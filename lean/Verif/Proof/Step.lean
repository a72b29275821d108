import Verif.Proof.Reach
/-!
# What one call does to the core

`Step` is a finer account than `exec_refines`: besides the abstract database it follows the tree
that is stored.
-/

namespace Hyperbee

/-- The effect of a call on the blocks, given that the handle showed a database before. -/
inductive Step (s : St) (c : Cmd) (r : Reply) (s' : St) : Prop
  | same (h : s'.core = s.core) (e : effect c r = none)
  | header (m : Option Metadata) (h0 : s.core = []) (h : s'.core = [encodeHeader ⟨PROTOCOL, m⟩])
      (e : effect c r = none)
  | first (k : Bytes) (v : Option Bytes) (t' : T) (h1 : s.core.length ≤ 1)
      (e : effect c r = some (.set k v))
      (w : Wrote s.ready.core s.io k v (fun _ => False) s' 0 t' [1] 1)
  | put (k : Bytes) (v : Option Bytes) (H : Nat) (t : T) (H' : Nat) (t' : T) (m : Option Nat)
      (pre post : List Nat) (ht : TreeAt s.core H t) (e : effect c r = some (.set k v))
      (l : Loc s.core k t.flat m pre post)
      (w : Wrote s.core s.io k v (· ∈ t.refs) s' H' t' (pre ++ s.core.length :: post) (2 * (H + 1) + 1))
      (hH : H' ≤ H + 1)
  | del (k : Bytes) (H : Nat) (t : T) (H' : Nat) (t' : T) (q : Nat)
      (pre post : List Nat) (ht : TreeAt s.core H t) (e : effect c r = some (.clear k))
      (l : Loc s.core k t.flat (some q) pre post)
      (w : Wrote s.core s.io k none (· ∈ t.refs) s' H' t' (pre ++ post) (H + 2))
      (hH : H' ≤ H)

theorem ready_core (s : St) : s.ready.core = s.core ∨ (s.core = [] ∧ s.ready.core = [headerBlock]) := by
  unfold St.ready
  split
  · rename_i h
    have : s.core = [] := List.eq_nil_of_length_eq_zero h
    exact .inr ⟨this, by simp [St.withHeader, this]⟩
  · exact .inl rfl

theorem headerBlock_eq : headerBlock = encodeHeader ⟨PROTOCOL, none⟩ := rfl

theorem putCAS_step {s : St} {d : Db} (h : Holds s d) (k : Bytes) (v : Option Bytes)
    (cas : Option KeyValueData → KeyValueData → Bool) (c : Cmd) (f : Option Nat × Option Nat → Reply)
    (e1 : ∀ a, effect c (f (a, none)) = none) (e2 : ∀ a q, effect c (f (a, some q)) = some (.set k v)) :
    ∃ r s', putCompareAndSwap k v cas s = (.ok r, s') ∧ Step s c (f r) s' := by
  rcases h.store with hb | ⟨H, t, ht, hc, hcon⟩
  · obtain ⟨h1, h2⟩ := putCAS_empty hb.1 h.wf h.ok k v cas
    cases hcas : cas none ⟨1, k, v⟩ with
    | false =>
      refine ⟨_, _, h1 hcas, ?_⟩
      rcases ready_core s with hr | ⟨h0, hr⟩
      · exact .same hr (e1 _)
      · exact .header none h0 hr (e1 _)
    | true =>
      obtain ⟨s', t', h3, w⟩ := h2 hcas
      exact ⟨_, _, h3, .first k v t' hb.1 (e2 _ _) w⟩
  · obtain ⟨m, pre, post, s', hloc, h1, h2⟩ := putCAS_tree ht h.wf hc h.ok k v cas
    cases hcas : cas (m.map fun q => ⟨q, keyOf s.core q, valOf s.core q⟩) ⟨s.core.length, k, v⟩ with
    | false =>
      obtain ⟨h3, e⟩ := h1 hcas
      exact ⟨_, _, h3, .same e.core (e1 _)⟩
    | true =>
      obtain ⟨H', t', h3, w, h4⟩ := h2 hcas
      exact ⟨_, _, h3, .put k v H t H' t' m pre post ht (e2 _ _) hloc w h4⟩

theorem delCAS_step {s : St} {d : Db} (h : Holds s d) (k : Bytes)
    (cas : KeyValueData → Bool) (c : Cmd) (f : Option (Bool × Nat) → Reply)
    (e1 : effect c (f none) = none) (e3 : ∀ q, (∃ e, cas e = false) → effect c (f (some (false, q))) = none)
    (e2 : ∀ q, effect c (f (some (true, q))) = some (.clear k)) :
    ∃ r s', delCompareAndSwap k cas s = (.ok r, s') ∧ Step s c (f r) s' := by
  rcases h.store with hb | ⟨H, t, ht, hc, hcon⟩
  · exact ⟨_, _, delCAS_empty hb.1 k cas, .same rfl e1⟩
  · obtain ⟨m, pre, post, s', hloc, h0, h1, h2⟩ := delCAS_tree ht h.wf hc h.ok k cas
    cases m with
    | none =>
      obtain ⟨h3, e⟩ := h0 rfl
      exact ⟨_, _, h3, .same e.core e1⟩
    | some q =>
      cases hcas : cas ⟨q, keyOf s.core q, valOf s.core q⟩ with
      | false =>
        obtain ⟨h3, e⟩ := h1 q rfl hcas
        exact ⟨_, _, h3, .same e.core (e3 _ ⟨_, hcas⟩)⟩
      | true =>
        obtain ⟨H', t', h3, w, h4⟩ := h2 q rfl hcas
        exact ⟨_, _, h3, .del k H t H' t' q pre post ht (e2 _) hloc w h4⟩

theorem exec_step {s : St} {d : Db} (h : Holds s d) (c : Cmd) :
    Step s c (exec c s).1 (exec c s).2 := by
  have quiet : ∀ {α : Type} (m : M α) (f : α → Reply), Keeps m → exec c s = replyOf m f s →
      (∀ r, effect c r = none) → Step s c (exec c s).1 (exec c s).2 := by
    intro α m f hk he hn
    refine .same ?_ (hn _)
    rw [he, (replyOf_reply m f s).2, (hk.at_ s).1]
  cases c with
  | version => exact quiet version _ Keeps.version rfl (fun r => by cases r <;> rfl)
  | get k => exact quiet (get k) _ (get_keeps k) rfl (fun r => by cases r <;> rfl)
  | traverse b sched =>
    exact quiet (traverseSession b sched) _ (traverseSession_keeps b sched) rfl (fun r => by cases r <;> rfl)
  | reopen => exact .same rfl rfl
  | createHeader m =>
    have hn : ∀ r, effect (.createHeader m) r = none := fun r => by cases r <;> rfl
    rw [show exec (.createHeader m) s = replyOf (createHeader m) .created s from rfl, (replyOf_reply _ _ s).2]
    rcases createHeader_core m s with ⟨h1, h2, h3⟩ | ⟨e, h2, h3, _⟩
    · exact .header m h1 h3 (hn _)
    · exact .same h3 (hn _)
  | put k v =>
    obtain ⟨r, s', h1, h2⟩ := putCAS_step h k v (fun _ _ => true) (.put k v)
      (fun r => match r.2 with | some q => .put r.1 q | none => .error (.panic "")) (fun _ => rfl) (fun _ _ => rfl)
    obtain ⟨s'', h3, _⟩ := putCAS_holds h k v (fun _ _ => true)
    rw [h1] at h3
    simp only [if_true, Prod.mk.injEq, Except.ok.injEq] at h3
    obtain ⟨rfl, rfl⟩ := h3
    have hp : put k v s = (.ok ((d.map k).map (·.1), d.nextSeq), s') := by
      unfold put
      rw [bind_ok h1]
      rfl
    simp only [exec, replyOf, hp]
    exact h2
  | putCas k v cas =>
    obtain ⟨r, s', h1, h2⟩ := putCAS_step h k v cas (.putCas k v cas)
      (fun r => .putCas r.1 r.2) (fun _ => rfl) (fun _ _ => rfl)
    simp only [exec, replyOf, h1]
    exact h2
  | del k =>
    obtain ⟨r, s', h1, h2⟩ := delCAS_step h k (fun _ => true) (.del k)
      (fun r => .del (r.map (·.2))) rfl (by simp) (fun _ => rfl)
    obtain ⟨s'', h3, _⟩ := delCAS_holds h k (fun _ => true)
    rw [h1] at h3
    simp only [Prod.mk.injEq, Except.ok.injEq] at h3
    obtain ⟨rfl, rfl⟩ := h3
    have hp : del k s = (.ok ((d.entry k).map (·.seq)), s') := by
      unfold del
      rw [bind_ok h1]
      cases d.entry k <;> rfl
    simp only [exec, replyOf, hp]
    simpa [Option.map_map, Function.comp_def] using h2
  | delCas k cas =>
    obtain ⟨r, s', h1, h2⟩ := delCAS_step h k cas (.delCas k cas)
      .delCas rfl (fun _ _ => rfl) (fun _ => rfl)
    simp only [exec, replyOf, h1]
    exact h2

end Hyperbee
