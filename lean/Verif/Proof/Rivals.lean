import Verif.Model.Rivals
import Verif.Proof.Lossy
import Verif.Proof.Handles
import Verif.Proof.OwnRun
/-!
# Calls through several handles that keep apart

Each call sees the same core from its first step to its last, and its handle as it was: what it does is
what it would have done at once.
-/

namespace Hyperbee

theorem Prog.inFlight_ended (p : Prog α) : p.inFlight = !p.ended := by cases p <;> rfl

/-- On a core that is not empty a call appends in its last step only. -/
theorem after_still {s : St} (h0 : s.core ≠ []) (hok : s.io.appendOk = true) (c : Cmd) (n : Nat)
    (hn : (Prog.after n (Prog.exec c) s).1.ended = false) : (Prog.after n (Prog.exec c) s).2.core = s.core := by
  have hl : c.looks = true → (Prog.after n (Prog.exec c) s).2.core = s.core :=
    fun hl => after_late (noApp_looks hl).late n s hn
  cases c with
  | version => exact hl rfl
  | get k => exact hl rfl
  | traverse b rs => exact hl rfl
  | put k v =>
    rcases after_hfirst ((hfirst_put k v).replyOf _) n s hok hn with h | ⟨h1, h2⟩
    · exact h
    · exact absurd h1 h0
  | putCas k v cas =>
    rcases after_hfirst ((hfirst_putCas k v cas).replyOf _) n s hok hn with h | ⟨h1, h2⟩
    · exact h
    · exact absurd h1 h0
  | del k => exact after_late ((late_del k).replyOf _) n s hn
  | delCas k cas => exact after_late ((late_delCas k cas).replyOf _) n s hn
  | createHeader m => exact after_late ((late_createHeader m).replyOf _) n s hn
  | reopen => rw [after_ended rfl] at hn; cases hn

/-- A call that has ended has done what it does at once. -/
theorem after_done {c : Cmd} (hc : c ≠ .reopen) {n : Nat} {s : St} (hn : (Prog.after n (Prog.exec c) s).1.ended = true) :
    Prog.after n (Prog.exec c) s = (.pure (exec c s).1, (exec c s).2) := by
  have h := run_after n (Prog.exec c) s
  rw [run_exec c hc] at h
  generalize Prog.after n (Prog.exec c) s = q at hn h
  obtain ⟨q, t⟩ := q
  cases q with
  | step x k => cases hn
  | throw e => cases h
  | pure a => cases h; rfl

theorem World.run_snoc (cs : List (Nat × Cmd)) (x : Nat × Cmd) (w : World) :
    World.run (cs ++ [x]) w = ((World.run cs w).1 ++ [((World.run cs w).2.exec x.1 x.2).1],
      ((World.run cs w).2.exec x.1 x.2).2) := by
  induction cs generalizing w with
  | nil => rfl
  | cons y cs ih =>
    obtain ⟨i, c⟩ := y
    show (_ :: (World.run (cs ++ [x]) (w.exec i c).2).1, (World.run (cs ++ [x]) (w.exec i c).2).2) = _
    rw [ih]
    rfl

theorem World.set_self (w : World) (h : Nat) : w.set h (w.at h) = w := by
  obtain ⟨core, hs⟩ := w
  unfold World.set World.at
  congr 1
  funext j
  split
  · next e => rw [e]
  · rfl

theorem World.at_other {w : World} {h h' : Nat} (hne : h' ≠ h) {s : St} (hc : s.core = w.core) :
    (w.set h s).at h' = w.at h' := by
  unfold World.set World.at
  simp only [if_neg hne, hc]

/-- The calls with these numbers. -/
def pick (cs : List (Nat × Cmd)) (order : List Nat) : List (Nat × Cmd) := order.filterMap (cs[·]?)

/-- The calls that have returned were made one after the other, in this order; `u` is what they left. -/
structure Serial (cs : List (Nat × Cmd)) (w0 : World) (begun : List Nat) (ps : List (Nat × Prog Reply)) (w : World)
    (order : List Nat) (u : World) : Prop where
  run : (World.run (pick cs order) w0).2 = u
  len : ps.length = cs.length
  core : w.core = u.core
  blocks : w.core ≠ []
  nodup : order.Nodup
  fresh : ∀ i h c, cs[i]? = some (h, c) → i ∉ begun → ps[i]? = some (h, Prog.exec c) ∧ i ∉ order
  taken : ∀ i h c, cs[i]? = some (h, c) → i ∈ begun →
    (∃ n, ps[i]? = some (h, (Prog.after n (Prog.exec c) (u.at h)).1) ∧
      (Prog.after n (Prog.exec c) (u.at h)).1.ended = false ∧ w.at h = (Prog.after n (Prog.exec c) (u.at h)).2 ∧ i ∉ order) ∨
    ∃ r, ps[i]? = some (h, .pure r) ∧ i ∈ order
  idle : ∀ h, (∀ i ∈ begun, ∀ p, ps[i]? = some (h, p) → p.ended = true) → w.handles h = u.handles h
  told : order.map (fun i => ps[i]?.bind fun p => p.2.result) = (World.run (pick cs order) w0).1.map some

theorem World.next_after {w u : World} {h n : Nat} {c : Cmd} (hw : w.at h = (Prog.after n (Prog.exec c) (u.at h)).2) :
    World.next h (Prog.after n (Prog.exec c) (u.at h)).1 w =
      ((Prog.after (n + 1) (Prog.exec c) (u.at h)).1, w.set h (Prog.after (n + 1) (Prog.exec c) (u.at h)).2) := by
  unfold World.next
  rw [hw, after_succ]

theorem after_io (n : Nat) (c : Cmd) (u : World) (h : Nat) : (Prog.after n (Prog.exec c) (u.at h)).2.io = Io.good :=
  (after_grows n _ _).2

theorem Serial.step {cs : List (Nat × Cmd)} {w0 : World} {begun : List Nat} {ps : List (Nat × Prog Reply)} {w : World}
    {order : List Nat} {u : World} (S : Serial cs w0 begun ps w order u) (hc : ∀ x ∈ cs, x.2 ≠ .reopen)
    {i h : Nat} {p : Prog Reply} (hi : ps[i]? = some (h, p))
    (ha : ∀ j ∈ begun, j ≠ i → ∀ h' q, ps[j]? = some (h', q) → q.ended = false →
      h' ≠ h ∧ (World.next h p w).2.core = w.core) :
    ∃ order' u', Serial cs w0 (i :: begun) (ps.set i (h, (World.next h p w).1)) (World.next h p w).2 order' u' := by
  have hlt : i < ps.length := (List.getElem?_eq_some_iff.mp hi).1
  obtain ⟨⟨h0, c⟩, hci⟩ : ∃ x, cs[i]? = some x := ⟨_, List.getElem?_eq_getElem (S.len ▸ hlt)⟩
  have hcr : c ≠ .reopen := hc _ (List.mem_of_getElem? hci)
  have hget : ∀ q, (ps.set i q)[i]? = some q := fun q => by simp [hlt]
  have hoth : ∀ j q, j ≠ i → (ps.set i q)[j]? = ps[j]? := fun j q hj => by rw [List.getElem?_set_ne (Ne.symm hj)]
  -- a call that has returned
  by_cases hdone : ∃ r, i ∈ begun ∧ ps[i]? = some (h0, .pure r) ∧ i ∈ order
  · obtain ⟨r, hb, hr, ho⟩ := hdone
    rw [hi] at hr
    cases hr
    have e1 : World.next h (.pure r : Prog Reply) w = (.pure r, w) := by
      show (Prog.pure r, w.set h (w.at h)) = _
      rw [World.set_self]
    rw [e1]
    have same : ps.set i (h, Prog.pure r) = ps := by
      apply List.ext_getElem?
      intro j
      by_cases hj : j = i
      · rw [hj, hget, hi]
      · rw [hoth j _ hj]
    show ∃ order' u', Serial cs w0 (i :: begun) (ps.set i (h, Prog.pure r)) w order' u'
    rw [same]
    refine ⟨order, u, S.run, S.len, S.core, S.blocks, S.nodup, fun j h' c' hj hn => ?_, fun j h' c' hj hn => ?_, fun h' hh => ?_, S.told⟩
    · exact S.fresh j h' c' hj fun hm => hn (List.mem_cons_of_mem _ hm)
    · refine S.taken j h' c' hj ?_
      rcases List.mem_cons.mp hn with rfl | hn
      · exact hb
      · exact hn
    · exact S.idle h' fun j hj q hq => hh j (List.mem_cons_of_mem _ hj) q hq
  -- a call under way, or one that takes its first step
  · obtain ⟨n, rfl, hp, hw, hord⟩ : ∃ n, h0 = h ∧ p = (Prog.after n (Prog.exec c) (u.at h)).1 ∧
        w.at h = (Prog.after n (Prog.exec c) (u.at h)).2 ∧ i ∉ order := by
      by_cases hb : i ∈ begun
      · rcases S.taken i h0 c hci hb with ⟨n, e1, e2, e3, e4⟩ | ⟨r, e1, e2⟩
        · rw [hi] at e1
          cases e1
          exact ⟨n, rfl, rfl, e3, e4⟩
        · exact absurd ⟨r, hb, e1, e2⟩ hdone
      · obtain ⟨e1, e2⟩ := S.fresh i h0 c hci hb
        rw [hi] at e1
        cases e1
        refine ⟨0, rfl, rfl, ?_, e2⟩
        show w.at h = u.at h
        have := S.idle h fun j hj q hq => by
          cases hq' : q.ended with
          | true => rfl
          | false => exact absurd rfl (ha j hj (fun e => hb (e ▸ hj)) h q hq hq').1
        unfold World.at
        rw [S.core, this]
    subst hp
    rw [World.next_after hw] at ha ⊢
    have hio := after_io (n + 1) c u h0
    have hat := World.set_at w h0 hio
    cases he : (Prog.after (n + 1) (Prog.exec c) (u.at h0)).1.ended with
    | false =>
      have hcore : (Prog.after (n + 1) (Prog.exec c) (u.at h0)).2.core = w.core := by
        rw [S.core]
        exact after_still (s := u.at h0) (by rw [show (u.at h0).core = u.core from rfl, ← S.core]; exact S.blocks) rfl c (n + 1) he
      refine ⟨order, u, S.run, by rw [List.length_set]; exact S.len, hcore.trans S.core, by rw [show (w.set h0 _).core = _ from hcore]; exact S.blocks, S.nodup, fun j h' c' hj hn => ?_, fun j h' c' hj hn => ?_, fun h' hh => ?_, ?_⟩
      · have hji : j ≠ i := fun e => hn (e ▸ List.mem_cons_self)
        rw [hoth j _ hji]
        exact S.fresh j h' c' hj fun hm => hn (List.mem_cons_of_mem _ hm)
      · by_cases hji : j = i
        · subst hji
          rw [hci] at hj
          cases hj
          exact .inl ⟨n + 1, hget _, he, hat, hord⟩
        · rw [hoth j _ hji]
          have hjb : j ∈ begun := by
            rcases List.mem_cons.mp hn with h | h
            · exact absurd h hji
            · exact h
          rcases S.taken j h' c' hj hjb with ⟨m, e1, e2, e3, e4⟩ | hr
          · refine .inl ⟨m, e1, e2, ?_, e4⟩
            rw [World.at_other (ha j hjb hji h' _ e1 e2).1 hcore]
            exact e3
          · exact .inr hr
      · by_cases hh' : h' = h0
        · subst hh'
          have := hh i List.mem_cons_self _ (hget _)
          rw [he] at this
          cases this
        · show (if h' = h0 then _ else w.handles h') = _
          rw [if_neg hh']
          refine S.idle h' fun j hj q hq => ?_
          refine hh j (List.mem_cons_of_mem _ hj) q ?_
          rw [hoth j _ (fun e => ?_)]
          · exact hq
          · rw [e, hi] at hq
            cases hq
            exact hh' rfl
      · rw [← S.told]
        refine List.map_congr_left fun j hj => ?_
        rw [hoth j _ (fun e => hord (e ▸ hj))]
    | true =>
      have hd := after_done hcr he
      rw [hd] at ha hat ⊢
      have hpick : pick cs (order ++ [i]) = pick cs order ++ [(h0, c)] := by
        unfold pick
        rw [List.filterMap_append]
        simp [hci]
      have hrun : World.run (pick cs (order ++ [i])) w0 = ((World.run (pick cs order) w0).1 ++ [(exec c (u.at h0)).1],
          u.set h0 (exec c (u.at h0)).2) := by
        rw [hpick, World.run_snoc, S.run]
        rfl
      refine ⟨order ++ [i], u.set h0 (exec c (u.at h0)).2, by rw [hrun], by rw [List.length_set]; exact S.len, rfl, ?_, ?_, fun j h' c' hj hn => ?_, fun j h' c' hj hn => ?_, fun h' hh => ?_, ?_⟩
      · have : w.core <+: (exec c (u.at h0)).2.core := by
          have := (after_grows (n + 1) (Prog.exec c) (u.at h0)).1
          rw [hd] at this
          rw [S.core]
          exact this
        intro hnil
        rw [show (exec c (u.at h0)).2.core = [] from hnil] at this
        exact S.blocks (List.eq_nil_of_prefix_nil this)
      · rw [List.nodup_append]
        exact ⟨S.nodup, by simp, fun a hm b hb => by rw [List.mem_singleton.mp hb]; rintro rfl; exact hord hm⟩
      · have hji : j ≠ i := fun e => hn (e ▸ List.mem_cons_self)
        rw [hoth j _ hji]
        obtain ⟨e1, e2⟩ := S.fresh j h' c' hj fun hm => hn (List.mem_cons_of_mem _ hm)
        refine ⟨e1, fun hm => ?_⟩
        rcases List.mem_append.mp hm with hm | hm
        · exact e2 hm
        · exact hji (List.mem_singleton.mp hm)
      · by_cases hji : j = i
        · subst hji
          rw [hci] at hj
          cases hj
          exact .inr ⟨_, hget _, by simp⟩
        · rw [hoth j _ hji]
          have hjb : j ∈ begun := by
            rcases List.mem_cons.mp hn with h | h
            · exact absurd h hji
            · exact h
          rcases S.taken j h' c' hj hjb with ⟨m, e1, e2, e3, e4⟩ | ⟨r, e1, e2⟩
          · obtain ⟨g1, g2⟩ := ha j hjb hji h' _ e1 e2
            have g3 : (exec c (u.at h0)).2.core = u.core := Eq.trans g2 S.core
            have g4 : (u.set h0 (exec c (u.at h0)).2).at h' = u.at h' := World.at_other g1 g3
            rw [g4]
            refine .inl ⟨m, e1, e2, ?_, fun hm => ?_⟩
            · rw [World.at_other g1 g2]
              exact e3
            · rcases List.mem_append.mp hm with hm | hm
              · exact e4 hm
              · exact hji (List.mem_singleton.mp hm)
          · exact .inr ⟨r, e1, List.mem_append_left _ e2⟩
      · by_cases hh' : h' = h0
        · subst hh'
          show (if h' = h' then _ else w.handles h') = if h' = h' then _ else u.handles h'
          rw [if_pos rfl, if_pos rfl]
        · show (if h' = h0 then _ else w.handles h') = if h' = h0 then _ else u.handles h'
          rw [if_neg hh', if_neg hh']
          refine S.idle h' fun j hj q hq => ?_
          refine hh j (List.mem_cons_of_mem _ hj) q ?_
          rw [hoth j _ (fun e => ?_)]
          · exact hq
          · rw [e, hi] at hq
            cases hq
            exact hh' rfl
      · rw [hrun, List.map_append, List.map_append, ← S.told]
        congr 1
        · refine List.map_congr_left fun j hj => ?_
          rw [hoth j _ (fun e => hord (e ▸ hj))]
        · simp [hget, Prog.result]

theorem Serial.interleave {cs : List (Nat × Cmd)} {w0 : World} (hc : ∀ x ∈ cs, x.2 ≠ .reopen) (sched : List Nat) :
    ∀ {begun : List Nat} {ps : List (Nat × Prog Reply)} {w : World} {order : List Nat} {u : World},
    Serial cs w0 begun ps w order u → World.apart begun sched ps w = true →
    ∃ begun' order' u', Serial cs w0 begun' (World.interleave sched ps w).1 (World.interleave sched ps w).2 order' u' ∧
      ∀ i < cs.length, i ∈ begun' ↔ i ∈ begun ∨ i ∈ sched := by
  induction sched with
  | nil => exact fun S _ => ⟨_, _, _, S, fun i _ => by simp⟩
  | cons i is ih =>
    intro begun ps w order u S ha
    unfold World.interleave
    unfold World.apart at ha
    cases hi : ps[i]? with
    | none =>
      simp only [hi] at ha ⊢
      obtain ⟨b, o, u', S', hb⟩ := ih S ha
      refine ⟨b, o, u', S', fun j hj => ?_⟩
      have : j ≠ i := by
        rintro rfl
        rw [List.getElem?_eq_none_iff, S.len] at hi
        omega
      rw [hb j hj, List.mem_cons]
      simp [this]
    | some x =>
      obtain ⟨h, p⟩ := x
      simp only [hi, Bool.and_eq_true] at ha ⊢
      obtain ⟨o, u', S'⟩ := S.step hc hi (by
        intro j hj hji h' q hq he
        have := List.all_eq_true.mp ha.1 j hj
        simp only [hq, Prog.inFlight_ended, he] at this
        simpa [hji] using this)
      obtain ⟨b, o, u', S', hb⟩ := ih S' ha.2
      refine ⟨b, o, u', S', fun j hj => ?_⟩
      rw [hb j hj, List.mem_cons, List.mem_cons]
      constructor
      · rintro ((h | h) | h)
        · exact .inr (.inl h)
        · exact .inl h
        · exact .inr (.inr h)
      · rintro (h | h | h)
        · exact .inl (.inr h)
        · exact .inl (.inl h)
        · exact .inr h

end Hyperbee
