import Verif.Proof.DreamRun
import Verif.Proof.OwnRun
import Verif.Props.Contents
import Verif.Props.Replica
/-!
# A replica that is read while it replicates: what holds at all times
-/

namespace Hyperbee

theorem ideal_ends {s : St} (hs : Reachable s) {c : Cmd} (hc : c.looks = true) :
    ideal (St.open s.core) (Prog.exec c) ≠ .ok (.error .diverge) := by
  rw [ideal_exec _ hc]
  obtain ⟨d, hd⟩ := hs.holds
  rw [← (call_same hd hd.stored.open rfl c).1]
  have := no_failure hs c
  intro he
  simp only [Except.ok.injEq] at he
  cases c with
  | version => exact this _ he
  | get k => exact this _ he
  | traverse b rs =>
    rcases this with ⟨_, h⟩ | ⟨_, h⟩ | ⟨xs, f, h⟩
    · rw [he] at h; cases h
    · rw [he] at h; cases h
    · rw [he] at h; cases h
  | _ => cases hc

/-! ## One call -/

/-- The call `c` has come as far as `p`: it has not taken its first step; or it took it when the core
was `F`, and whatever happens it will reply what it may reply on `F`. -/
def Fine (mis : Nat → Fault → Prop) (Fs : List Bytes → Prop) (c : Cmd) (p : Prog Reply) (Γ : Names) (s : St) : Prop :=
  p = Prog.exec c ∨ ∃ F Γ0 D, Fs F ∧ F <+: s.core ∧ Γ0.le Γ ∧ Bd F Γ0 ∧ Got D s ∧
    OkL F mis p Γ0 D fun _ D' r => Dream F mis (Prog.exec c) (fun _ => False) r D'

variable {mis : Nat → Fault → Prop} {Fs : List Bytes → Prop} {c : Cmd} {p : Prog Reply} {Γ : Names} {s : St}

theorem Fine.mono (h : Fine mis Fs c p Γ s) {Γ' : Names} {s' : St} (hl : Γ.le Γ') (hc : s.core <+: s'.core)
    (hg : Got (fun q => s.cache q ≠ none) s') : Fine mis Fs c p Γ' s' := by
  rcases h with h | ⟨F, Γ0, D, h1, h2, h3, h4, h5, h6⟩
  · exact .inl h
  · exact .inr ⟨F, Γ0, D, h1, h2.trans hc, h3.trans hl, h4, fun q hq => hg q (h5 q hq), h6⟩

theorem rr_eqr {Γ : Names} {r r' : Except Err α} (h : RR EqR Γ r r') : r = r' := by
  cases r with
  | ok a => obtain ⟨i, rfl, h⟩ := h.ok_inv; cases h; rfl
  | error e => exact (h.error_inv).symm

/-- One more step. -/
theorem Fine.next (h : Fine mis Fs c p Γ s) (hk : KnownL Γ s) (hs : ∃ t, Reachable t ∧ s.core = t.core)
    (hc : c.looks = true) (hF : Fs s.core) (f : Option Fault)
    (hread : ∀ q, p.fetching = some q → f = none → ¬ mis q .missing → s.io.readable q = true)
    (hfail : ∀ q g, p.fetching = some q → f = some g → mis q g) :
    ∃ Γ', Γ.le Γ' ∧ KnownL Γ' (p.nextFlaky f s).2 ∧ (p.nextFlaky f s).2.core = s.core ∧
      Got (fun q => s.cache q ≠ none) (p.nextFlaky f s).2 ∧ Fine mis Fs c (p.nextFlaky f s).1 Γ' (p.nextFlaky f s).2 := by
  cases p with
  | pure a => exact ⟨Γ, .refl Γ, hk, rfl, fun _ h => h, h⟩
  | throw e => exact ⟨Γ, .refl Γ, hk, rfl, fun _ h => h, h⟩
  | step x k =>
    rcases h with h | ⟨F, Γ0, D, h1, h2, h3, h4, h5, h6⟩
    · obtain ⟨t, ht, hcore⟩ := hs
      have hin : Inward s.core := by rw [hcore]; exact inward_reachable ht
      have hd : ideal (St.open s.core) (Prog.exec c) ≠ .ok (.error .diverge) := by rw [hcore]; exact ideal_ends ht hc
      rcases thenL_exec (mis := mis) hin hc hd with ⟨k', hk', hok⟩ | ⟨r, hr⟩
      · rw [hk'] at h
        cases h
        have hx : (Prog.step .version k').nextFlaky f s = (k' (.ok s.core.length), s) := by
          cases f <;> rfl
        rw [hx]
        refine ⟨Γ, .refl Γ, hk, rfl, fun _ h => h, .inr ⟨s.core, fun _ => none, fun _ => False, hF,
          List.prefix_refl _, fun _ _ h => (by cases h), fun _ _ h => (by cases h), fun _ h => h.elim, ?_⟩⟩
        refine OkL.imp (hok _) ?_
        rintro Γ' D' r ⟨r', g1, g2⟩
        rw [rr_eqr g2]
        exact g1
      · rw [hr] at h
        cases h
    · obtain ⟨h7, h8⟩ := h6 h4
      cases hx : f.bind x.fail with
      | some r =>
        rw [show (Prog.step x k).nextFlaky f s = (k r, s) by simp only [Prog.nextFlaky, hx]]
        refine ⟨Γ, .refl Γ, hk, rfl, fun _ h => h, .inr ⟨F, Γ0, D, h1, h2, h3, h4, h5, ?_⟩⟩
        cases f with
        | none => cases hx
        | some g =>
          have : ∃ q, x.fetches = some q := by
            have key : ∀ {β : Type} (x : Atom β) (r : Except Err β), x.fail g = some r → ∃ q, x.fetches = some q := by
              intro β x
              induction x with
              | coreFetch q => intro _ _; exact ⟨q, rfl⟩
              | under a m x ih => intro r h; exact ih r h
              | _ => intro r h; cases h
            exact key x r hx
          obtain ⟨q, hq⟩ := this
          exact h8 q g r hq (hfail q g hq rfl) hx
      | none =>
        rw [show (Prog.step x k).nextFlaky f s = (k (x.run s).1, (x.run s).2) by simp only [Prog.nextFlaky, hx]]
        obtain ⟨Γ', D', g1, g2, g3, g4, g5, g6⟩ := h7 Γ s h3 h2 hk h5 (by
          intro q hq hm
          refine hread q hq ?_ hm
          cases f with
          | none => rfl
          | some g =>
            exfalso
            have key : ∀ {β : Type} (x : Atom β), x.fetches = some q → x.fail g ≠ none := by
              intro β x
              induction x with
              | coreFetch q => intro _ h; cases h
              | under a m x ih => intro h; exact ih h
              | _ => intro h; cases h
            exact key x hq hx)
        refine ⟨Γ', g1, g2, g3, g5, .inr ⟨F, cut F Γ', D', h1, by rw [g3]; exact h2, cut_le F Γ', bd_cut F Γ', g4, g6⟩⟩

/-- The reply. -/
theorem Fine.reply {r : Reply} (h : Fine mis Fs c (.pure r) Γ s) (hF : Fs s.core) :
    ∃ F D, Fs F ∧ Dream F mis (Prog.exec c) (fun _ => False) (.ok r) D := by
  rcases h with h | ⟨F, Γ0, D, h1, h2, h3, h4, h5, h6⟩
  · exact ⟨s.core, _, hF, by rw [← h]; exact .pure⟩
  · exact ⟨F, D, h1, h6 Γ0 (.refl Γ0) h4⟩

/-! ## All calls -/

/-- What holds at all times; `ws` are the calls of the owner, `cs` those through the replica. -/
structure Peer.Good (mis : Nat → Nat → Fault → Prop) (Fs : Nat → List Bytes → Prop) (ws cs : List Cmd) (l : Peer)
    (Γ : Names) : Prop where
  owner : l.owner = runSt ws St.init
  core : l.here.core = l.owner.core.take l.here.core.length
  known : KnownL Γ l.here
  len : l.calls.length = cs.length
  calls : ∀ (i : Nat) (p : Prog Reply) (c : Cmd), l.calls[i]? = some p → cs[i]? = some c →
    Fine (mis i) (Fs i) c p Γ l.here

variable {mis : Nat → Nat → Fault → Prop} {Fs : Nat → List Bytes → Prop} {ws cs : List Cmd} {l : Peer}

theorem Peer.Good.init : Peer.init.Good mis Fs [] [] (fun _ => none) :=
  ⟨rfl, rfl, known_new [], rfl, fun i p c h => by simp [Peer.init] at h⟩

theorem Peer.Good.history (h : l.Good mis Fs ws cs Γ) :
    ∃ past, l.here.core = (runSt past St.init).core ∧ logOf past = (logOf ws).take (l.here.core.length - 1) := by
  have hle : l.here.core.length ≤ (runSt ws St.init).core.length := by
    have := congrArg List.length h.core
    rw [List.length_take, h.owner] at this
    omega
  obtain ⟨cs', h1, h2⟩ := history_prefix ws _ hle
  exact ⟨cs', by rw [h1, ← h.owner]; exact h.core, h2⟩

/-- What the steps of a call may rely on. -/
def Peer.Allows (l : Peer) (mis : Nat → Nat → Fault → Prop) (Fs : Nat → List Bytes → Prop) : PeerEvent → Prop
  | .step i f => Fs i l.here.core ∧
    (∀ q, l.fetching i = some q → f = none → ¬ mis i q .missing → l.here.io.readable q = true) ∧
    (∀ q g, l.fetching i = some q → f = some g → mis i q g)
  | .call c => c.looks = true
  | _ => True

theorem Peer.Good.step (h : l.Good mis Fs ws cs Γ) (hcs : ∀ c ∈ cs, c.looks = true) (e : PeerEvent)
    (he : l.Allows mis Fs e) : ∃ Γ', (l.step e).Good mis Fs (ws ++ peerWrites [e]) (cs ++ peerCalls [e]) Γ' := by
  have hle : l.here.core.length ≤ l.owner.core.length := by
    have := congrArg List.length h.core
    rw [List.length_take] at this
    omega
  cases e with
  | write c =>
    refine ⟨Γ, by rw [show peerWrites [.write c] = [c] from rfl, runSt_snoc, ← h.owner]; rfl, ?_, h.known,
      by simpa [peerCalls, Peer.step] using h.len, by simpa [peerCalls, Peer.step] using h.calls⟩
    have hgrow : ∃ bs, (exec c l.owner).2.core = l.owner.core ++ bs := by
      rw [h.owner]
      rcases (exec_step (run_holds ws) c).core_cases with ⟨h, _⟩ | ⟨h0, ⟨m, h⟩, _⟩ | ⟨b, h, _⟩ | ⟨h0, b, h, _⟩
      · exact ⟨[], by simp [h]⟩
      · exact ⟨_, by rw [h0, h]; rfl⟩
      · exact ⟨_, h⟩
      · exact ⟨_, by rw [h0, h]; rfl⟩
    obtain ⟨bs, hbs⟩ := hgrow
    simp only [Peer.step]
    rw [hbs, List.take_append_of_le_length hle]
    exact h.core
  | learn n =>
    have hpre : l.here.core <+: l.owner.core.take (max n l.here.core.length) := by
      conv_lhs => rw [h.core]
      rw [List.prefix_take_iff]
      exact ⟨List.take_prefix _ _, by rw [List.length_take]; omega⟩
    simp only [peerWrites, peerCalls, List.append_nil]
    refine ⟨Γ, h.owner, ?_, h.known.core hpre, h.len, fun i p c h1 h2 =>
      (h.calls i p c h1 h2).mono (.refl Γ) hpre fun _ h => h⟩
    simp only [Peer.step, List.length_take]
    rw [List.take_eq_take_iff]
    omega
  | hold ρ =>
    simp only [peerWrites, peerCalls, List.append_nil]
    exact ⟨Γ, h.owner, h.core, h.known, h.len, fun i p c h1 h2 =>
      (h.calls i p c h1 h2).mono (.refl Γ) (List.prefix_refl _) fun _ h => h⟩
  | call c =>
    simp only [peerWrites, peerCalls, List.append_nil]
    refine ⟨Γ, h.owner, h.core, h.known, by simp [Peer.step, h.len], ?_⟩
    intro i p c' h1 h2
    simp only [Peer.step] at h1
    rcases Nat.lt_or_ge i cs.length with hi | hi
    · rw [List.getElem?_append_left (by rw [h.len]; exact hi)] at h1
      rw [List.getElem?_append_left hi] at h2
      exact h.calls i p c' h1 h2
    · rw [List.getElem?_append_right (by rw [h.len]; exact hi)] at h1
      rw [List.getElem?_append_right hi] at h2
      rw [h.len] at h1
      cases hj : i - cs.length with
      | zero =>
        rw [hj] at h1 h2
        cases h1
        cases h2
        exact .inl rfl
      | succ n => rw [hj] at h2; simp at h2
  | step i f =>
    simp only [peerWrites, peerCalls, List.append_nil]
    simp only [Peer.step]
    cases hp : l.calls[i]? with
    | none => exact ⟨Γ, h⟩
    | some p =>
      have hlt : i < l.calls.length := (List.getElem?_eq_some_iff.mp hp).1
      have hci : cs[i]? = some (cs[i]'(by rw [← h.len]; exact hlt)) := List.getElem?_eq_getElem _
      obtain ⟨a1, a2, a3⟩ := he
      have hf : l.fetching i = p.fetching := by simp [Peer.fetching, hp]
      rw [hf] at a2 a3
      obtain ⟨past, hpast, -⟩ := h.history
      obtain ⟨Γ', g1, g2, g3, g4, g5⟩ := (h.calls i p _ hp hci).next h.known ⟨_, ⟨past, rfl⟩, hpast⟩
        (hcs _ (List.getElem_mem _)) a1 f a2 a3
      refine ⟨Γ', h.owner, by rw [g3]; exact h.core, g2, by simpa using h.len, ?_⟩
      intro j q c h1 h2
      simp only [] at h1
      rw [List.getElem?_set] at h1
      split at h1
      · rename_i hij
        subst hij
        simp only [Option.some.injEq] at h1
        subst h1
        rw [hci] at h2
        cases h2
        exact g5
      · exact (h.calls j q c h1 h2).mono g1 (by simp only [g3]; exact List.prefix_refl _) g4

theorem peerWrites_append (a b : List PeerEvent) : peerWrites (a ++ b) = peerWrites a ++ peerWrites b := by
  induction a with
  | nil => rfl
  | cons e a ih => cases e <;> simp [peerWrites, ih]

theorem peerCalls_append (a b : List PeerEvent) : peerCalls (a ++ b) = peerCalls a ++ peerCalls b := by
  induction a with
  | nil => rfl
  | cons e a ih => cases e <;> simp [peerCalls, ih]

theorem Peer.run_append (l : Peer) (a b : List PeerEvent) : l.run (a ++ b) = (l.run a).run b := by
  induction a generalizing l with
  | nil => rfl
  | cons e a ih => exact ih _

/-- For as long as every step may be taken. -/
theorem Peer.Good.run (h : l.Good mis Fs ws cs Γ) (hcs : ∀ c ∈ cs, c.looks = true) (es : List PeerEvent)
    (he : ∀ a e b, es = a ++ e :: b → (l.run a).Allows mis Fs e) :
    ∃ Γ', (l.run es).Good mis Fs (ws ++ peerWrites es) (cs ++ peerCalls es) Γ' := by
  induction es generalizing l ws cs Γ with
  | nil => exact ⟨Γ, by simpa [peerWrites, peerCalls, Peer.run] using h⟩
  | cons e es ih =>
    have he0 := he [] e es rfl
    obtain ⟨Γ1, h1⟩ := h.step hcs e he0
    have hcs1 : ∀ c ∈ cs ++ peerCalls [e], c.looks = true := by
      intro c hc
      rcases List.mem_append.mp hc with hc | hc
      · exact hcs c hc
      · cases e with
        | call c' => simp only [peerCalls, List.mem_singleton] at hc; subst hc; exact he0
        | _ => simp [peerCalls] at hc
    obtain ⟨Γ2, h2⟩ := ih h1 hcs1 (fun a e' b hab => he (e :: a) e' b (by rw [hab]; rfl))
    refine ⟨Γ2, ?_⟩
    rw [List.append_assoc, List.append_assoc, ← peerWrites_append, ← peerCalls_append] at h2
    exact h2

end Hyperbee
