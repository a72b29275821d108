import Verif.Model.Replica
import Verif.Proof.Clean
import Verif.Props.History
/-!
# Sparse replicas

Property C44.
-/

namespace Hyperbee

/-- A handle of a replica, on the blocks of a history. -/
theorem sparse_get {s : St} (h : Clean s) (hok : s.io.appendOk = true) {cs : List Cmd}
    (hc : s.core = (runSt cs St.init).core) (k : Bytes) :
    (exec (.get k) s).1 = .got (lastWrite k (logOf cs).reverse) ∨
      ∃ q, (exec (.get k) s).1 = .error (.noBlockAtSeq q) ∧ q < s.core.length ∧ s.io.readable q = false := by
  obtain ⟨L, β, hcl, hrt, hr, _⟩ := (run_holds cs).rel h.sparse hc hok
  have hsame := RT.same (RT.get hcl hrt k) hr
  have hg : (exec (.get k) (runSt cs St.init)).1 = .got (lastWrite k (logOf cs).reverse) := get_latest cs k
  simp only [exec, replyOf] at hg ⊢
  cases h1 : get k (runSt cs St.init) with
  | mk r1 t1 =>
    cases h2 : get k s with
    | mk r2 t2 =>
      rw [h1, h2] at hsame
      rw [h1] at hg
      rcases hsame with ⟨he, _⟩ | ⟨e, he, q, rfl, hq, hm, _⟩
      · simp only at he
        subst he
        left
        cases r1 <;> simpa using hg
      · right
        simp only at he
        subst he
        exact ⟨q, rfl, by rw [hc]; exact hq, hm⟩

/-- What holds of a replica at all times. -/
structure Replica.Inv (r : Replica) (cs : List Cmd) : Prop where
  owner : r.owner = runSt cs St.init
  clean : Clean r.here
  ok : r.here.io.appendOk = true
  core : r.here.core = r.owner.core.take r.here.core.length

theorem Replica.Inv.step {r : Replica} {cs : List Cmd} (h : r.Inv cs) (e : ReplicaEvent) :
    (r.step e).Inv (cs ++ ownerCalls [e]) := by
  have hle : r.here.core.length ≤ r.owner.core.length := by
    have := congrArg List.length h.core
    rw [List.length_take] at this
    omega
  cases e with
  | write c =>
    refine ⟨by rw [show ownerCalls [.write c] = [c] from rfl, runSt_snoc, ← h.owner]; rfl, h.clean, h.ok, ?_⟩
    have hgrow : ∃ bs, (exec c r.owner).2.core = r.owner.core ++ bs := by
      rw [h.owner]
      rcases (exec_step (run_holds cs) c).core_cases with ⟨h, _⟩ | ⟨h0, ⟨m, h⟩, _⟩ | ⟨b, h, _⟩ | ⟨h0, b, h, _⟩
      · exact ⟨[], by simp [h]⟩
      · exact ⟨_, by rw [h0, h]; rfl⟩
      · exact ⟨_, h⟩
      · exact ⟨_, by rw [h0, h]; rfl⟩
    obtain ⟨bs, hbs⟩ := hgrow
    simp only [Replica.step]
    rw [hbs, List.take_append_of_le_length hle]
    exact h.core
  | learn n =>
    have hx : r.owner.core.take (max n r.here.core.length) = r.here.core ++
        (r.owner.core.drop r.here.core.length).take (max n r.here.core.length - r.here.core.length) := by
      conv_rhs => rw [h.core, List.length_take, Nat.min_eq_left hle]
      rw [← List.take_add, show r.here.core.length + (max n r.here.core.length - r.here.core.length) =
        max n r.here.core.length by omega]
    simp only [ownerCalls, List.append_nil]
    refine ⟨h.owner, ?_, h.ok, ?_⟩
    · simp only [Replica.step]
      rw [hx]
      exact h.clean.grow _
    · simp only [Replica.step, List.length_take]
      rw [List.take_eq_take_iff]
      omega
  | hold ρ => exact ⟨by simpa [ownerCalls, Replica.step] using h.owner, h.clean.hold _, rfl, h.core⟩
  | get k =>
    have hb := h.clean.exec_get k
    exact ⟨by simpa [ownerCalls, Replica.step] using h.owner, hb.clean, by simpa [Replica.step, hb.io] using h.ok,
      by simpa [Replica.step, hb.core] using h.core⟩
  | traverse b sched =>
    have hb := h.clean.exec_traverse b sched
    exact ⟨by simpa [ownerCalls, Replica.step] using h.owner, hb.clean, by simpa [Replica.step, hb.io] using h.ok,
      by simpa [Replica.step, hb.core] using h.core⟩

theorem ownerCalls_cons (e : ReplicaEvent) (es : List ReplicaEvent) :
    ownerCalls (e :: es) = ownerCalls [e] ++ ownerCalls es := by cases e <;> rfl

theorem Replica.Inv.run : ∀ (es : List ReplicaEvent) {r : Replica} {cs : List Cmd}, r.Inv cs →
    (r.run es).Inv (cs ++ ownerCalls es)
  | [], _, _, h => by simpa [ownerCalls, Replica.run] using h
  | e :: es, r, cs, h => by
    have := Replica.Inv.run es (h.step e)
    rwa [List.append_assoc, ← ownerCalls_cons] at this

theorem Replica.Inv.init : Replica.init.Inv [] := ⟨rfl, Clean.open [] _, rfl, rfl⟩

theorem Replica.Inv.history {r : Replica} {cs : List Cmd} (h : r.Inv cs) :
    ∃ cs', r.here.core = (runSt cs' St.init).core ∧ logOf cs' = (logOf cs).take (r.here.core.length - 1) := by
  have hle : r.here.core.length ≤ (runSt cs St.init).core.length := by
    have := congrArg List.length h.core
    rw [List.length_take, h.owner] at this
    omega
  obtain ⟨cs', h1, h2⟩ := history_prefix cs _ hle
  exact ⟨cs', by rw [h1, ← h.owner]; exact h.core, h2⟩

/-! ## C44 -/

/-- C44.  Whatever the owner has done, whatever length the replica knows of, whichever blocks it
holds and held before, and whatever was read through it: `get k` returns what the first writes of
the owner — as many as the replica knows of — say, or the error naming a block below the known
length which the replica does not hold. -/
theorem replica_get (es : List ReplicaEvent) (k : Bytes) :
    let cs := ownerCalls es
    let s := (Replica.init.run es).here
    s.core = (runSt cs St.init).core.take s.core.length ∧
    ((exec (.get k) s).1 =
        .got (lastWrite k ((effects cs (runReplies cs St.init)).take (s.core.length - 1)).reverse) ∨
      ∃ q, (exec (.get k) s).1 = .error (.noBlockAtSeq q) ∧ q < s.core.length ∧ s.io.readable q = false) := by
  intro cs s
  have h := Replica.Inv.run es Replica.Inv.init
  simp only [List.nil_append] at h
  obtain ⟨cs', h1, h2⟩ := h.history
  refine ⟨by rw [← h.owner]; exact h.core, ?_⟩
  have := sparse_get h.clean h.ok h1 k
  rw [h2] at this
  exact this

/-- C44.  Once all blocks are there, the answer is the right one. -/
theorem replica_get_full (es : List ReplicaEvent) (k : Bytes)
    (hall : ∀ q, q < (Replica.init.run es).here.core.length → (Replica.init.run es).here.io.readable q = true) :
    let cs := ownerCalls es
    let s := (Replica.init.run es).here
    (exec (.get k) s).1 =
        .got (lastWrite k ((effects cs (runReplies cs St.init)).take (s.core.length - 1)).reverse) := by
  intro cs s
  rcases (replica_get es k).2 with h | ⟨q, _, h1, h2⟩
  · exact h
  · rw [hall q h1] at h2; cases h2

/-- How many blocks the replica lacks. -/
def lacking (s : St) : Nat := (List.range s.core.length).countP fun q => !s.io.readable q

theorem countP_lt {p p' : Nat → Bool} {l : List Nat} (h : ∀ x ∈ l, p' x = true → p x = true) {y : Nat} (hy : y ∈ l)
    (h1 : p y = true) (h2 : p' y = false) : l.countP p' < l.countP p := by
  induction l with
  | nil => simp at hy
  | cons x l ih =>
    rw [List.countP_cons, List.countP_cons]
    have hle : l.countP p' ≤ l.countP p := List.countP_mono_left fun z hz => h z (by simp [hz])
    rcases List.mem_cons.mp hy with rfl | hy
    · simp only [h1, h2]
      simp
      omega
    · have := ih (fun z hz => h z (by simp [hz])) hy
      have hx := h x (by simp)
      cases hp : p' x <;> cases hq : p x <;> simp_all; omega

theorem fetchGet_run (k : Bytes) {cs : List Cmd} : ∀ (n : Nat) (s : St), Clean s → s.io.appendOk = true →
    s.core = (runSt cs St.init).core → lacking s ≤ n →
    (fetchGet k n s).1 = .got (lastWrite k (logOf cs).reverse)
  | n, s, h, hok, hc, hn => by
    rcases sparse_get h hok hc k with hg | ⟨q, hg, hq, hm⟩
    · cases n with
      | zero => exact hg
      | succ n =>
        simp only [fetchGet]
        cases hx : exec (.get k) s with
        | mk r s' =>
          rw [hx] at hg
          simp only at hg
          subst hg
          rfl
    · have hpos : 0 < lacking s := by
        unfold lacking
        exact List.countP_pos_iff.mpr ⟨q, by simpa using hq, by simp [hm]⟩
      cases n with
      | zero => omega
      | succ n =>
        have hb := h.exec_get k
        simp only [fetchGet]
        cases hx : exec (.get k) s with
        | mk r s' =>
          rw [hx] at hg hb
          simp only at hg hb
          subst hg
          refine fetchGet_run k n _ (hb.clean.hold _) (by simpa [hb.io] using hok) (by simpa [hb.core] using hc) ?_
          have : lacking { s' with io := ⟨fun n => n == q || s'.io.readable n, s'.io.appendOk⟩ } < lacking s := by
            unfold lacking
            simp only [hb.core, hb.io]
            refine countP_lt ?_ (y := q) (by simpa using hq) (by simp [hm]) (by simp)
            intro x _ hx
            simp at hx ⊢
            exact hx.2
          omega

/-- C44.  Fetching the block an error names and trying again ends with the right answer, after no more
rounds than there are blocks missing. -/
theorem replica_fetch (es : List ReplicaEvent) (k : Bytes) :
    let cs := ownerCalls es
    let s := (Replica.init.run es).here
    (fetchGet k (lacking s) s).1 =
        .got (lastWrite k ((effects cs (runReplies cs St.init)).take (s.core.length - 1)).reverse) := by
  intro cs s
  have h := Replica.Inv.run es Replica.Inv.init
  simp only [List.nil_append] at h
  obtain ⟨cs', h1, h2⟩ := h.history
  rw [fetchGet_run k _ s h.clean h.ok h1 (Nat.le_refl _), h2]
  rfl

/-- A replica of the demonstration history which knows of 30 blocks, holds the odd ones, and reads. -/
def demoReplica : List ReplicaEvent :=
  demo.map .write ++ [.learn 20, .hold fun q => q % 2 == 1, .get (demoKey 4), .learn 30]

example : (exec (.get (demoKey 4)) (Replica.init.run demoReplica).here).1 = .got (some (23, some [122])) ∧
    (exec (.get (demoKey 9)) (Replica.init.run demoReplica).here).1 = .error (.noBlockAtSeq 28) ∧
    (fetchGet (demoKey 9) 5 (Replica.init.run demoReplica).here).1 = .got (some (28, some [127])) ∧
    lacking (Replica.init.run demoReplica).here = 15 := by decide +kernel

example : ∀ q, q < (Replica.init.run (demoReplica ++ [.hold fun q => q < 30])).here.core.length →
    (Replica.init.run (demoReplica ++ [.hold fun q => q < 30])).here.io.readable q = true := by decide +kernel

end Hyperbee
