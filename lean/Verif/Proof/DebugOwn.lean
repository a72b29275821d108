import Verif.Proof.DebugAsync
import Verif.Proof.OwnRun
/-!
# `height` and `print` through a handle of one's own
-/

namespace Hyperbee

/-! ## They only load -/

theorem Fetching.said {base : Nat} {Open : Nat → Prop} {p : Prog α} {Γ : Names} {C : List Bytes} {f : α → Said}
    (h : Fetching base Open p Γ C) : Fetching base Open (Prog.said f p) Γ C := by
  induction p generalizing Γ C with
  | pure a => trivial
  | throw e => trivial
  | step x k ih =>
    intro strict K hK Γg s hl hC hk hx
    obtain ⟨Γg', h1, h2, h3, h4⟩ := h strict K hK Γg s hl hC hk hx
    exact ⟨Γg', h1, h2, h3, ih _ h4⟩

theorem loader_printLoop (H : Nat) : ∀ rs fs out, Loader _ (Prog.printLoop H rs fs out) := by
  intro rs
  induction rs with
  | nil => intro _ _; exact loader_acts.pure _
  | cons r rs ih =>
    intro fs out
    unfold Prog.printLoop
    refine loader_acts.bind (loader_poll r fs) ?_
    rintro ⟨p, fs'⟩
    cases p with
    | pending w1 w2 => exact ih _ _
    | ready item w =>
      cases item with
      | none => exact loader_acts.pure _
      | some it =>
        obtain ⟨x, a⟩ := it
        refine loader_acts.bind (loader_acts.nodeHeight_ a) fun n => ?_
        split
        · exact loader_acts.throw _
        · cases x with
          | error e => exact loader_acts.throw _
          | ok kv =>
            dsimp only
            split
            · exact ih _ _
            · exact loader_acts.throw _

theorem loader_ask {c : Ask} (hc : c.looks = true) : Loader _ (Prog.ask c) := by
  have said : ∀ {α : Type} {p : Prog α} (f : α → Said), Loader α p → Loader _ (Prog.said f p) :=
    fun f h => ⟨fun b o Γ C => (h.safe b o Γ C).said⟩
  cases c with
  | call c => exact said _ (loader_exec hc)
  | height =>
    refine said _ ?_
    unfold Prog.height
    refine loader_acts.bind loader_getRoot fun r => ?_
    cases r with
    | none => exact loader_acts.pure _
    | some a => exact loader_acts.nodeHeight_ a
  | print rs =>
    refine said _ ?_
    unfold Prog.print
    refine loader_acts.bind loader_getRoot fun r => ?_
    cases r with
    | none => exact loader_acts.throw _
    | some a => exact loader_acts.bind (loader_acts.nodeHeight_ a) fun n => loader_printLoop _ _ _ _

/-! ## On a growing core -/

theorem ideal_heightLoop_more (s : St) : ∀ (n m : Nat), n ≤ m → ∀ (out i : Nat),
    ideal s (Prog.heightLoop n out i) ≠ .error .diverge →
    ideal s (Prog.heightLoop m out i) = ideal s (Prog.heightLoop n out i) := by
  intro n
  induction n with
  | zero => intro m _ out i h; exact absurd rfl h
  | succ n ih =>
    intro m hm out i h
    obtain ⟨m, rfl⟩ : ∃ m', m = m' + 1 := ⟨m - 1, by omega⟩
    unfold Prog.heightLoop at h ⊢
    rw [ideal_bind] at h ⊢
    rw [ideal_bind]
    cases h1 : ideal s (Prog.readNode i) with
    | error e => rfl
    | ok x =>
      simp only [h1] at h ⊢
      split
      · rfl
      · rename_i hc
        rw [if_neg hc, ideal_bind] at h
        rw [ideal_bind, ideal_bind]
        cases h3 : ideal s (Prog.getChild i 0) with
        | error e => rfl
        | ok a =>
          simp only [h3] at h ⊢
          exact ih m (by omega) _ _ h

section
variable {b : St} {G : Nat → Prop} {F : List Bytes}

theorem simB_heightLoop (hin : Fenced b G F) : ∀ fuel out (Γ : Names) a i, Γ a = some i →
    SimB b G F (Prog.heightLoop fuel out a) (Prog.heightLoop fuel out i) Γ EqR := by
  intro fuel
  induction fuel with
  | zero => intro _ _ _ _ _; exact SimB.throw
  | succ n ih =>
    intro out Γ a i h
    unfold Prog.heightLoop
    refine SimB.bind (simB_readNode hin h) fun Γ1 n n' h1 hn => ?_
    cases hn
    split
    · exact SimB.pure fun _ _ => rfl
    · exact SimB.bind (simB_getChild hin (h1 _ _ h) 0) fun Γ2 b j h2 hb => ih _ _ _ _ hb

theorem simB_restHeight (hin : Fenced b G F) {Γ : Names} {a i : Nat} (h : Γ a = some i)
    (hd : ideal (b.on F) (Prog.descentFuel >>= fun fuel => Prog.heightLoop fuel 1 i) ≠ .error .diverge) :
    SimB b G F (Prog.descentFuel >>= fun fuel => Prog.heightLoop fuel 1 a)
      (Prog.descentFuel >>= fun fuel => Prog.heightLoop fuel 1 i) Γ EqR := by
  have h0 : ideal (b.on F) (Prog.descentFuel >>= fun fuel => Prog.heightLoop fuel 1 i) =
    ideal (b.on F) (Prog.heightLoop (stepBound F) 1 i) := rfl
  unfold SimB
  rw [h0] at hd ⊢
  intro hb Γf hlf Γg s hl hF hi
  refine ⟨Γg, .refl Γg, hi, rfl, ?_⟩
  have := simB_heightLoop hin (stepBound s.core) 1 (cutG G Γg) a i (le_cutG hb (hlf.trans hl) a i h)
    (bdG_cut G Γg) Γg (cutG_le G Γg)
  rw [ideal_heightLoop_more (b.on F) _ _ (stepBound_mono hF) 1 i hd] at this
  exact this

theorem simB_nodeHeight (hin : Fenced b G F) {Γ : Names} {a i : Nat} (h : Γ a = some i)
    (hd : ideal (b.on F) (Prog.nodeHeight i) ≠ .error .diverge) :
    SimB b G F (Prog.nodeHeight a) (Prog.nodeHeight i) Γ EqR := by
  unfold Prog.nodeHeight at hd ⊢
  refine SimB.bind' ((simBLaws hin).isLeaf h) fun Γ1 l l' hid h1 hl => ?_
  cases hl
  rw [ideal_bind, hid] at hd
  dsimp only at hd
  split
  · exact SimB.pure fun _ _ => rfl
  · rename_i hc
    rw [if_neg hc] at hd
    refine SimB.bind' (simB_getChild hin (h1 _ _ h) 0) fun Γ2 b j hid2 h2 hb => ?_
    rw [ideal_bind, hid2] at hd
    exact simB_restHeight hin hb hd

theorem simB_printLoop (hin : Fenced b G F) (H : Nat) : ∀ (rs : List Bool) (fs fs' : List Frame) (out : Bytes) (Γ : Names),
    List.Forall₂ (FrameR Γ) fs fs' → ideal (b.on F) (Prog.printLoop H rs fs' out) ≠ .error .diverge →
    SimB b G F (Prog.printLoop H rs fs out) (Prog.printLoop H rs fs' out) Γ EqR := by
  intro rs
  induction rs with
  | nil => intro _ _ _ _ _ _; exact SimB.pure fun _ _ => rfl
  | cons r rs ih =>
    intro fs fs' out Γ h hd
    unfold Prog.printLoop at hd ⊢
    refine SimB.bind' ((simBLaws hin).poll r fs fs' Γ h) ?_
    rintro Γ1 ⟨p, gs⟩ ⟨p', gs'⟩ hid h1 ⟨hp, hg⟩
    rw [ideal_bind, hid] at hd
    cases hp with
    | pending w1 w2 => exact ih _ _ _ _ hg hd
    | done w => exact SimB.pure fun _ _ => rfl
    | item x ha w =>
      dsimp only at hd ⊢
      rw [ideal_bind] at hd
      refine SimB.bind' (simB_nodeHeight hin ha ?_) fun Γ2 n n' hid2 h2 hn => ?_
      · intro he
        rw [he] at hd
        exact hd rfl
      cases hn
      rw [hid2] at hd
      dsimp only at hd
      split
      · exact SimB.throw
      · rename_i hc
        rw [if_neg hc] at hd
        cases x with
        | error e => exact SimB.throw
        | ok kv =>
          dsimp only at hd ⊢
          split
          · rename_i hu
            rw [if_pos hu] at hd
            exact ih _ _ _ _ (frames_mono h2 hg) hd
          · exact SimB.throw

theorem thenB_height (hin : Fenced b G F) (hd : ideal (b.on F) Prog.height ≠ .error .diverge) :
    ThenB b G F Prog.height EqR := by
  unfold Prog.height at hd ⊢
  refine (thenB_getRoot hin).bind ?_
  intro Γ1 r r' h1 hr
  rw [ideal_bind, h1] at hd
  cases hr with
  | none => exact SimB.pure fun _ _ => rfl
  | some ha => exact simB_nodeHeight hin ha hd

theorem thenB_print (hin : Fenced b G F) (rs : List Bool) (hd : ideal (b.on F) (Prog.print rs) ≠ .error .diverge) :
    ThenB b G F (Prog.print rs) EqR := by
  unfold Prog.print at hd ⊢
  refine (thenB_getRoot hin).bind ?_
  intro Γ1 r r' h1 hr
  rw [ideal_bind, h1] at hd
  cases hr with
  | none => exact SimB.throw
  | some ha =>
    dsimp only at hd ⊢
    unfold Prog.printNode at hd ⊢
    rw [ideal_bind] at hd
    refine SimB.bind' (simB_nodeHeight hin ha ?_) fun Γ2 n n' hid2 h2 hn => ?_
    · intro he
      rw [he] at hd
      exact hd rfl
    cases hn
    rw [hid2] at hd
    exact simB_printLoop hin _ _ _ _ _ _ (.cons (frame_new (h2 _ _ ha) _) .nil) hd

theorem ideal_said (s : St) (f : α → Said) (p : Prog α) : ideal s (Prog.said f p) = .ok (saidOf f (ideal s p)) := by
  induction p with
  | pure a => rfl
  | throw e => rfl
  | step x k ih => exact ih _

theorem OkB.said {p : Prog α} {r' : Except Err α} {Γ : Names} {f : α → Said}
    (h : OkB b F p Γ fun Γ' r => RR EqR (cutG G Γ') r r') :
    OkB b F (Prog.said f p) Γ fun Γ' r => RR EqR (cutG G Γ') r (.ok (saidOf f r')) := by
  induction p generalizing Γ with
  | pure a =>
    intro Γ' hl
    have := h Γ' hl
    cases r' with
    | ok i => exact congrArg f this
    | error e => exact this.elim
  | throw e =>
    intro Γ' hl
    have := h Γ' hl
    cases r' with
    | ok i => exact this.elim
    | error e' => exact congrArg Said.error this
  | step x k ih =>
    intro Γg s hl hF hi
    obtain ⟨Γg', h1, h2, h3, h4⟩ := h Γg s hl hF hi
    exact ⟨Γg', h1, h2, h3, ih _ h4⟩

theorem ThenB.said {p : Prog α} {f : α → Said} (h : ThenB b G F p EqR) : ThenB b G F (Prog.said f p) EqR := by
  obtain ⟨k, rfl, h⟩ := h
  refine ⟨fun r => Prog.said f (k r), rfl, fun Γ => ?_⟩
  rw [ideal_said]
  exact OkB.said (h Γ)

end

/-- A reading program through a handle that is only read through: what it returns is what it returns on the core at the
moment of its first step. -/
theorem World.first_read {b : St} {G : Nat → Prop} {w : World} {h i : Nat} {P : Prog α} (ps : List (Nat × Prog α))
    (hb : Rooms b) (hat : w.at h = b.on w.core) (hi : ps[i]? = some (h, P))
    (hown : ∀ (j : Nat) (p : Prog α), ps[j]? = some (h, p) → Loader _ p) (before after : List Nat) (hnot : i ∉ before)
    (hthen : ThenB b G (World.interleave before ps w).2.core P EqR ∨
      ∃ r, P = .pure r ∧ ideal (b.on (World.interleave before ps w).2.core) P = .ok r) (r : α)
    (hr : World.result (World.interleave (before ++ i :: after) ps w) i = some r) :
    ideal (b.on (World.interleave before ps w).2.core) P = .ok r := by
  obtain ⟨Γ1, -, hk1, hs1⟩ := World.interleave_own (h := h) (b := b) (P := fun _ p Γ C => Guarded b p Γ C)
    (fun _ _ _ _ _ _ h1 h2 h3 => h1.mono h2 h3) (fun _ _ _ _ h1 h2 => h1.next h2) before ps w (fun a => if a < b.heap.length then some a else none)
    (fun j p hj => (hown j p hj).guarded _ _ _) (by rw [hat]; exact knownB_start hb _)
  have hi1 := World.interleave_idle before ps w hnot
  rw [World.interleave_append] at hr
  generalize World.interleave before ps w = x at hk1 hs1 hi1 hthen hr ⊢
  obtain ⟨qs, w1⟩ := x
  simp only at hk1 hs1 hi1 hthen hr ⊢
  rw [hi] at hi1
  have hlt : i < qs.length := (List.getElem?_eq_some_iff.mp hi1).1
  rw [World.interleave, hi1] at hr
  simp only at hr
  rcases hthen with ⟨k, rfl, hok⟩ | ⟨r', rfl, hid⟩
  · generalize hI : ideal (b.on w1.core) (Prog.step Atom.version k) = I at hok ⊢
    have hst : ∀ Γ, Started b w1.core (fun r => ∀ a, r = .ok a → I = .ok a) (k (.ok w1.core.length)) Γ w1.core := by
      intro Γ
      refine ⟨List.prefix_refl _, fun _ => none, fun _ _ h => (by cases h), ?_⟩
      refine OkB.imp (hok _) fun Γ' r hr a ha => ?_
      subst ha
      cases I with
      | ok b => exact congrArg Except.ok (Eq.symm hr)
      | error e => exact hr.elim
    have hnx : World.next h (Prog.step Atom.version k) w1 = (k (.ok w1.core.length), w1.set h (w1.at h)) := rfl
    rw [hnx] at hr
    simp only at hr
    have hset : w1.set h (w1.at h) = w1 := by
      simp only [World.set, World.at]
      congr 1
      funext j
      split
      · rename_i hj; rw [hj]
      · rfl
    rw [hset] at hr
    obtain ⟨Γ2, -, -, hs2⟩ := World.interleave_own (b := b) (h := h)
      (P := fun j p Γ C => if j = i then Started b w1.core (fun r => ∀ a, r = .ok a → I = .ok a) p Γ C
        else Guarded b p Γ C)
      (by
        intro j p Γ Γ' C C' h1 h2 h3
        split at h1
        · rename_i hj; rw [if_pos hj]; exact h1.mono h2 h3
        · rename_i hj; rw [if_neg hj]; exact h1.mono h2 h3)
      (by
        intro j p Γ s h1 h2
        split at h1
        · rename_i hj; simp only [if_pos hj]; exact h1.next h2
        · rename_i hj; simp only [if_neg hj]; exact h1.next h2)
      after (qs.set i (h, k (.ok w1.core.length))) w1 Γ1 (by
        intro j p hj
        rw [List.getElem?_set] at hj
        split at hj
        · rename_i hij
          subst hij
          cases hj
          rw [if_pos rfl]
          exact hst Γ1
        · rename_i hij
          rw [if_neg (Ne.symm hij)]
          exact hs1 j p hj) hk1
    have hh := World.interleave_handle after (qs.set i (h, k (.ok w1.core.length))) w1 i
    rw [List.getElem?_set_self hlt] at hh
    unfold World.result at hr
    cases hx : (World.interleave after (qs.set i (h, k (.ok w1.core.length))) w1).1[i]? with
    | none => rw [hx] at hr; cases hr
    | some y =>
      obtain ⟨h', p⟩ := y
      rw [hx] at hh hr
      simp only [Option.map_some, Option.some.injEq] at hh
      subst hh
      have := hs2 i p hx
      rw [if_pos rfl] at this
      simp only [Option.bind_some] at hr
      cases p with
      | pure a =>
        cases hr
        exact this.pure _ rfl
      | throw e => cases hr
      | step x k => cases hr
  · have hx := World.interleave_done (i := i) (h := h) (a := r') after
      (qs.set i (h, (World.next h (Prog.pure r') w1).1)) (World.next h (Prog.pure r') w1).2 (by
        rw [List.getElem?_set_self hlt]
        rfl)
    unfold World.result at hr
    rw [hx] at hr
    cases hr
    exact hid

end Hyperbee
