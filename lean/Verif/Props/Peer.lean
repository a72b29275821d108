import Verif.Proof.Peer
import Verif.Props.Flaky
import Verif.Props.Demo
/-!
# Reading through a replica while it replicates

Property C80.
-/

namespace Hyperbee

/-- In the course of `es`, starting from `l`, the call `i` tried to fetch block `q` and failed as `f`
says: the read was made to fail, or the block was not there. -/
def Peer.failed (l : Peer) (es : List PeerEvent) (i q : Nat) (f : Fault) : Prop :=
  ∃ a g b, es = a ++ .step i g :: b ∧ (l.run a).fetching i = some q ∧
    (g = some f ∨ g = none ∧ f = .missing ∧ (l.run a).here.io.readable q = false)

/-- The call made after `pre` has the number `(peerCalls pre).length`; what it may reply. -/
theorem peer_dream (pre mid : List PeerEvent) (c : Cmd) (hlook : ∀ c' ∈ peerCalls (pre ++ .call c :: mid), c'.looks = true)
    (r : Reply) :
    let start := Peer.init.run (pre ++ [.call c])
    let i := (peerCalls pre).length
    (start.run mid).result i = some r →
    ∃ before after F past D, mid = before ++ after ∧ F = (start.run before).here.core ∧
      F = (runSt (peerWrites (pre ++ before)) St.init).core.take F.length ∧ F = (runSt past St.init).core ∧
      effects past (runReplies past St.init) = (effects (peerWrites (pre ++ before))
        (runReplies (peerWrites (pre ++ before)) St.init)).take (F.length - 1) ∧
      Dream F (start.failed mid i) (Prog.exec c) (fun _ => False) (.ok r) D := by
  intro start i hr
  rw [show pre ++ .call c :: mid = (pre ++ [.call c]) ++ mid by simp] at hlook
  have hl1 : ∀ c' ∈ peerCalls (pre ++ [.call c]), c'.looks = true := by
    intro c' hc'
    exact hlook c' (by rw [peerCalls_append]; exact List.mem_append_left _ hc')
  have hallow : ∀ (mis : Nat → Nat → Fault → Prop) (Fs : Nat → List Bytes → Prop) (es : List PeerEvent) (l : Peer),
      (∀ c' ∈ peerCalls es, c'.looks = true) → (∀ j q f, mis j q f) → (∀ j F, Fs j F) →
      ∀ a e b, es = a ++ e :: b → (l.run a).Allows mis Fs e := by
    intro mis Fs es l hcs hm hF a e b hab
    cases e with
    | step j f => exact ⟨hF _ _, fun q _ _ h => absurd (hm _ _ _) h, fun q g _ _ => hm _ _ _⟩
    | call c' =>
      refine hcs c' ?_
      rw [hab, show a ++ PeerEvent.call c' :: b = (a ++ [.call c']) ++ b by simp, peerCalls_append, peerCalls_append]
      simp [peerCalls]
    | _ => trivial
  -- before the call
  obtain ⟨Γ0, h0⟩ := (Peer.Good.init (mis := fun _ _ _ => True) (Fs := fun _ _ => True)).run (by simp) (pre ++ [.call c])
    (hallow _ _ _ _ hl1 (fun _ _ _ => trivial) fun _ _ => trivial)
  simp only [List.nil_append] at h0
  have hci : (peerCalls (pre ++ [.call c]))[i]? = some c := by simp [peerCalls_append, peerCalls, i]
  -- from the call on
  have hpi : start.calls[i]? = some (Prog.exec c) := by
    have hlen : (Peer.init.run pre).calls.length = i := by
      obtain ⟨_, h⟩ := (Peer.Good.init (mis := fun _ _ _ => True) (Fs := fun _ _ => True)).run (by simp) pre
        (hallow _ _ _ _ (fun c' hc' => hl1 c' (by rw [peerCalls_append]; exact List.mem_append_left _ hc'))
          (fun _ _ _ => trivial) fun _ _ => trivial)
      simpa using h.len
    show (Peer.init.run (pre ++ [.call c])).calls[i]? = _
    rw [Peer.run_append]
    simp only [Peer.run, Peer.step]
    rw [← hlen]
    simp
  have h1 : start.Good (fun j => if j = i then start.failed mid i else fun _ _ => True)
      (fun j => if j = i then fun F => ∃ before after, mid = before ++ after ∧ F = (start.run before).here.core else fun _ => True)
      (peerWrites (pre ++ [.call c])) (peerCalls (pre ++ [.call c])) Γ0 := by
    refine ⟨h0.owner, h0.core, h0.known, h0.len, fun j p c' hp hc' => ?_⟩
    by_cases hj : j = i
    · subst hj
      rw [hpi] at hp
      rw [hci] at hc'
      cases hp
      cases hc'
      exact .inl rfl
    · simp only [if_neg hj]
      exact h0.calls j p c' hp hc'
  have hstep : ∀ a e b, mid = a ++ e :: b → (start.run a).Allows
      (fun j => if j = i then start.failed mid i else fun _ _ => True)
      (fun j => if j = i then fun F => ∃ before after, mid = before ++ after ∧ F = (start.run before).here.core else fun _ => True) e := by
    intro a e b hab
    cases e with
    | step j f =>
      by_cases hj : j = i
      · subst hj
        simp only [Peer.Allows, if_true]
        refine ⟨⟨a, _, hab, rfl⟩, ?_, ?_⟩
        · intro q hq hf hm
          cases hx : (start.run a).here.io.readable q with
          | true => rfl
          | false => exact absurd ⟨a, f, b, hab, hq, .inr ⟨hf, rfl, hx⟩⟩ hm
        · intro q g hq hf
          exact ⟨a, f, b, hab, hq, .inl hf⟩
      · simp only [Peer.Allows, if_neg hj]
        exact ⟨trivial, fun _ _ _ h => absurd trivial h, fun _ _ _ _ => trivial⟩
    | call c' =>
      refine hlook c' ?_
      simp [hab, peerCalls_append, peerCalls]
    | _ => trivial
  obtain ⟨Γ1, h2⟩ := h1.run hl1 mid hstep
  unfold Peer.result at hr
  cases hp : (start.run mid).calls[i]? with
  | none => rw [hp] at hr; cases hr
  | some p =>
    rw [hp] at hr
    cases p with
    | throw e => cases hr
    | step x k => cases hr
    | pure r' =>
      cases hr
      have hfine := h2.calls i _ c hp (by
        rw [List.getElem?_append_left (List.getElem?_eq_some_iff.mp hci).1]; exact hci)
      simp only [if_true] at hfine
      obtain ⟨F, D, ⟨before, after, hmid, hF⟩, hD⟩ := hfine.reply ⟨mid, [], by simp, rfl⟩
      obtain ⟨Γ2, h3⟩ := h1.run hl1 before (fun a e b hab => hstep a e (b ++ after) (by rw [hmid, hab]; simp))
      obtain ⟨past, hp1, hp2⟩ := h3.history
      have hw : peerWrites (pre ++ [.call c]) ++ peerWrites before = peerWrites (pre ++ before) := by
        simp [peerWrites_append, peerWrites]
      refine ⟨before, after, F, past, D, hmid, hF, ?_, by rw [hF]; exact hp1, ?_, hD⟩
      · rw [← hw, ← h3.owner, hF]
        exact h3.core
      rw [hw, ← hF] at hp2
      exact hp2

/-! ## C80 -/

/-- C80.  A reading call is made through a replica while the owner writes, the replica learns of
greater lengths, blocks come and go, reads fail, and other reading calls are under way through the same
handle, all in any order and between any two steps.  What it replies, if it does, is what it replies
through a fresh handle on the blocks that were known at some moment since the call was made, with some
reads failing; and if no fetch of its own failed, it is exactly what it replies there. -/
theorem peer_reply (pre mid : List PeerEvent) (c : Cmd)
    (hlook : ∀ c' ∈ peerCalls (pre ++ .call c :: mid), c'.looks = true) (r : Reply) :
    let start := Peer.init.run (pre ++ [.call c])
    let i := (peerCalls pre).length
    (start.run mid).result i = some r →
    ∃ before after, mid = before ++ after ∧
      let F := (start.run before).here.core
      F = (runSt (peerWrites (pre ++ before)) St.init).core.take F.length ∧
      (∃ fs, r = (execFlaky fs c (St.open F)).1) ∧
      ((∀ q f, q < F.length → ¬ start.failed mid i q f) → r = (exec c (St.open F)).1) := by
  intro start i hr
  obtain ⟨before, after, F, past, D, h1, h2, h3, -, -, h6⟩ := peer_dream pre mid c hlook r hr
  have hc : c.looks = true := hlook c (by simp [peerCalls_append, peerCalls])
  have hne : c ≠ .reopen := by intro h; rw [h] at hc; cases hc
  subst h2
  refine ⟨before, after, h1, h3, ?_, ?_⟩
  · obtain ⟨t, ht⟩ := h6.runs hc
    obtain ⟨fs, hfs⟩ := ht.flaky
    exact ⟨fs, by rw [execFlaky_of hne fs _ (by rw [hfs])]⟩
  · intro hno
    obtain ⟨t, ht⟩ := h6.inside.runs hc
    have := ht.run fun q f h => hno q f h.1 h.2
    rw [run_exec _ hne] at this
    simp only [Prod.mk.injEq, Except.ok.injEq] at this
    exact this.1.symm

/-- C80 for lookups.  `get k` replies what the first writes of the owner say, as many as the replica
knew of at some moment since the call was made; or with the error of the read that failed, which was a
fetch of this very call, of a block known at that moment. -/
theorem peer_get (pre mid : List PeerEvent) (k : Bytes)
    (hlook : ∀ c' ∈ peerCalls (pre ++ .call (.get k) :: mid), c'.looks = true) (r : Reply) :
    let start := Peer.init.run (pre ++ [.call (.get k)])
    let i := (peerCalls pre).length
    (start.run mid).result i = some r →
    ∃ before after, mid = before ++ after ∧
      let F := (start.run before).here.core
      let ws := peerWrites (pre ++ before)
      F = (runSt ws St.init).core.take F.length ∧
      (r = .got (lastWrite k ((effects ws (runReplies ws St.init)).take (F.length - 1)).reverse) ∨
        (∃ q, q < F.length ∧ start.failed mid i q .missing ∧ r = .error (.noBlockAtSeq q)) ∨
        (∃ q, q < F.length ∧ start.failed mid i q .io ∧ r = .error .core)) := by
  intro start i hr
  obtain ⟨before, after, F, past, D, h1, h2, h3, h4, h5, h6⟩ := peer_dream pre mid (.get k) hlook r hr
  subst h2
  refine ⟨before, after, h1, h3, ?_⟩
  obtain ⟨r0, g1, g2⟩ := h6.of_replyOf
  rcases det_acts.get_ k _ _ _ g1 with hd | ⟨q, f, hq, hf, rfl⟩
  · left
    have hid := ideal_exec (start.run before).here.core (c := .get k) rfl
    have : ideal (St.open (start.run before).here.core) (Prog.exec (.get k)) = replied .got r0 := by
      show ideal _ (Prog.replyOf .got (Prog.get k)) = _
      rw [ideal_replyOf, ← hd]
      cases r0 <;> rfl
    rw [this, ← g2] at hid
    simp only [Except.ok.injEq] at hid
    rw [hid]
    have hs : Reachable (runSt past St.init) := ⟨past, rfl⟩
    obtain ⟨d, hd'⟩ := hs.holds
    have hsame := (call_same hd' hd'.stored.open rfl (.get k)).1
    rw [h4, ← hsame, get_latest, h5, h4]
  · right
    cases f with
    | missing => left; cases g2; exact ⟨q, hq, hf, rfl⟩
    | io => right; cases g2; exact ⟨q, hq, hf, rfl⟩

/-- The owner's demonstration history; the replica knows of 20 blocks and holds all but block 16. -/
def demoPeer : List PeerEvent := demo.map .write ++ [.learn 20, .hold fun q => q != 16]

/-- After the first step of the call with number 0 it learns of all blocks; three other lookups are
under way too, and the reads of the last of them fail from its twentieth step on. -/
def demoMeanwhile : List PeerEvent :=
  [.step 0 none, .learn 60, .call (.get (demoKey 3)), .call (.get (demoKey 15)), .call (.get (demoKey 0))] ++
  ((List.range 60).flatMap fun n => [.step 0 none, .step 1 none, .step 2 none, .step 3 (if n < 20 then none else some .io)])

/-- The first lookup sees the database as it was with 20 blocks; the second, of the same key, sees the
new one; the third needs a block that is not there; the fourth fails. -/
example : (Peer.init.run (demoPeer ++ [.call (.get (demoKey 3))] ++ demoMeanwhile)).result 0 = some (.got (some (10, some [109]))) ∧
    (Peer.init.run (demoPeer ++ [.call (.get (demoKey 3))] ++ demoMeanwhile)).result 1 = some (.got (some (31, none))) ∧
    (Peer.init.run (demoPeer ++ [.call (.get (demoKey 3))] ++ demoMeanwhile)).result 2 = some (.error (.noBlockAtSeq 16)) ∧
    (Peer.init.run (demoPeer ++ [.call (.get (demoKey 3))] ++ demoMeanwhile)).result 3 = some (.error .core) := by
  decide +kernel

example : ∀ c ∈ peerCalls (demoPeer ++ .call (.get (demoKey 3)) :: demoMeanwhile), c.looks = true := by decide +kernel

theorem Db.after_reopen : ∀ (cs : List Cmd) (d : Db), d.after (cs ++ [.reopen]) = d.after cs
  | [], _ => rfl
  | c :: cs, d => Db.after_reopen cs (d.next c)

/-- C80 for traversals.  A traversal of the replica goes through one state of the database, as the
first writes of the owner left it: it yields entries of the listing of that state only, in its order and
each once; what it yields before the first error is a beginning of the listing; if it ends without an
error it has yielded all of it; and if no fetch of its own failed there is no error. -/
theorem peer_traverse (pre mid : List PeerEvent) (b : TraverseConfigBuilder) (sched : List Bool)
    (hlook : ∀ c' ∈ peerCalls (pre ++ .call (.traverse b sched) :: mid), c'.looks = true)
    (xs : List (Except Err KeyValueData)) (fin : Bool) :
    let start := Peer.init.run (pre ++ [.call (.traverse b sched)])
    let i := (peerCalls pre).length
    (start.run mid).result i = some (.items xs fin) →
    ∃ before after past, mid = before ++ after ∧
      let F := (start.run before).here.core
      let ws := peerWrites (pre ++ before)
      F = (runSt past St.init).core ∧
      effects past (runReplies past St.init) = (effects ws (runReplies ws St.init)).take (F.length - 1) ∧
      ∃ conf full, b.build = .ok conf ∧ IsListing (Db.empty.after past) conf full ∧
        (xs.filterMap Except.toOption).Sublist full ∧
        (∀ ys more, xs = ys.map .ok ++ more → ys <+: full) ∧
        (fin = true → (∀ e, .error e ∉ xs) → xs = full.map .ok) ∧
        ((∀ q f, q < F.length → ¬ start.failed mid i q f) → ∀ e, .error e ∉ xs) := by
  intro start i hr
  obtain ⟨before, after, F, past, D, h1, h2, h3, h4, h5, h6⟩ := peer_dream pre mid (.traverse b sched) hlook _ hr
  subst h2
  refine ⟨before, after, past, h1, h4, h5, ?_⟩
  have hopen : runSt (past ++ [.reopen]) St.init = St.open (start.run before).here.core := by
    rw [runSt_snoc, h4]
    rfl
  obtain ⟨t, ht⟩ := h6.runs rfl
  obtain ⟨fs, hfs⟩ := ht.flaky
  have hx : (execFlaky fs (.traverse b sched) (runSt (past ++ [.reopen]) St.init)).1 = .items xs fin := by
    rw [hopen, execFlaky_of (by intro h; cases h) fs _ (by rw [hfs])]
  obtain ⟨conf, full, e1, e2, e3, e4, e5⟩ := traverse_no_silent_gap _ b sched fs xs fin hx
  rw [Db.after_reopen] at e2
  refine ⟨conf, full, e1, e2, e3, e4, e5, ?_⟩
  intro hno e he
  obtain ⟨t', ht'⟩ := h6.inside.runs rfl
  have := ht'.run fun q f h => hno q f h.1 h.2
  rw [run_exec _ (by intro h; cases h), ← hopen] at this
  simp only [Prod.mk.injEq, Except.ok.injEq] at this
  have hret := (exec_refines (run_refines (past ++ [.reopen]) Holds.init).2 (.traverse b sched)).1
  rw [this.1] at hret
  simp only [Db.Returns, e1] at hret
  split at hret
  · cases hret
  · obtain ⟨full', xs', fin', -, hi, -⟩ := hret
    cases hi
    simp at he

/-- A traversal that goes on while the replica learns of another 20 blocks. -/
example : ((Peer.init.run (demoPeer ++ [.hold fun _ => true, .call (.traverse {} (List.replicate 300 true))] ++ demoMeanwhile ++
      List.replicate 600 (.step 0 none))).result 0).map (fun r => match r with
        | .items xs fin => (xs.map fun x => match x with | .ok e => e.seq | .error _ => 0, fin)
        | _ => ([], false)) =
    some ([1, 14, 10, 6, 19, 2, 15, 11, 7, 3, 16, 12, 8, 4, 17, 13, 9, 5, 18], true) := by decide +kernel

end Hyperbee
