import Verif.Proof.Machine
/-!
# Helper lemmas: machine integers in calls through sub-databases
-/

namespace Hyperbee

section

variable {μ : Machine} {B : Nat}

theorem Machine.withKeyPrefix_eq (p : Prefixed) {key : Bytes} (h : (p.pre ++ p.sep ++ key).length < 2 ^ (μ.width - 1)) :
    μ.withKeyPrefix p key = Prog.pure (p.withKeyPrefix key) := by
  unfold Machine.withKeyPrefix Machine.concat
  rw [if_pos]
  · show Prog.pure _ = _
    simp [Prefixed.withKeyPrefix]
  · simpa [List.length_append, Nat.add_assoc] using h

theorem Machine.incrementBytes_eq (pref : Bytes) : μ.incrementBytes pref = Prog.pure (Hyperbee.incrementBytes pref) := by
  unfold Machine.incrementBytes Hyperbee.incrementBytes
  rcases List.eq_nil_or_concat pref with rfl | ⟨xs, x, rfl⟩
  · rfl
  · rw [List.concat_eq_append, if_neg (by simp)]
    have h1 : μ.sub (xs ++ [x]).length 1 = Prog.pure xs.length := by
      unfold Machine.sub Machine.subOf
      simp
      rfl
    show Prog.bind (μ.sub (xs ++ [x]).length 1) _ = _
    rw [h1]
    show (match (xs ++ [x])[xs.length]? with | none => _ | some last => _) = _
    rw [List.getElem?_append_right (Nat.le_refl _), Nat.sub_self, List.getLast?_concat]
    show (if x = 255 then _ else _) = _
    by_cases hx : x = 255
    · rw [if_pos hx]
      simp only [if_pos hx]
      rfl
    · rw [if_neg hx]
      simp only [if_neg hx]
      have hlt : x.toNat + (1 : UInt8).toNat < 2 ^ 8 := by
        have h := x.toNat_lt
        have h' : x.toNat ≠ 255 := fun e => hx (UInt8.toNat_inj.mp e)
        have : (1 : UInt8).toNat = 1 := rfl
        omega
      unfold Machine.addByte
      rw [if_pos hlt]
      show Prog.pure _ = Prog.pure _
      have e : UInt8.ofNat (x.toNat + (1 : UInt8).toNat) = x + 1 := by
        apply UInt8.toNat_inj.mp
        rw [UInt8.toNat_add, UInt8.toNat_ofNat']
      rw [e, List.dropLast_concat]
      simp

theorem Machine.boundedConf_eq (p : Prefixed) {conf : TraverseConfig}
    (hmin : ∀ k, conf.minValue = .finite k → (p.pre ++ p.sep ++ k).length < 2 ^ (μ.width - 1))
    (hmax : ∀ k, conf.maxValue = .finite k → (p.pre ++ p.sep ++ k).length < 2 ^ (μ.width - 1)) :
    μ.boundedConf p conf = Prog.pure (p.boundedConf conf) := by
  obtain ⟨lo, li, hi, hii, rev⟩ := conf
  unfold Machine.boundedConf Prefixed.boundedConf
  rw [Machine.incrementBytes_eq]
  cases lo with
  | infinite _ =>
    cases hi with
    | infinite _ => rfl
    | finite k => simp only [Machine.withKeyPrefix_eq p (hmax k rfl)]; rfl
  | finite j =>
    cases hi with
    | infinite _ => simp only [Machine.withKeyPrefix_eq p (hmin j rfl)]; rfl
    | finite k => simp only [Machine.withKeyPrefix_eq p (hmin j rfl), Machine.withKeyPrefix_eq p (hmax k rfl)]; rfl

theorem Machine.strip_eq (p : Prefixed) : Machine.strip (p.pre.length + p.sep.length) = Prog.strip p := by
  funext x
  cases x <;> rfl

theorem Mirror.subTraverse (hμ : μ.Has B) (p : Prefixed) (b : TraverseConfigBuilder) (sched : List Bool)
    (hs : p.Short (2 ^ (μ.width - 1)) (.traverse b sched)) :
    Mirror B (fun _ => True) (Prog.subTraverse p b sched) (μ.subTraverse p b sched) := by
  unfold Prog.subTraverse Machine.subTraverse
  cases hb : b.build with
  | error e => exact .throw _
  | ok conf =>
    simp only []
    obtain ⟨h0, h1⟩ := hs
    obtain ⟨hmin, hmax⟩ := h1 conf hb
    rw [Machine.boundedConf_eq p hmin hmax]
    refine Mirror.bind (Mirror.traverse hμ _) fun fs hf => ?_
    have hadd : μ.add p.pre.length p.sep.length = Prog.pure (p.pre.length + p.sep.length) := by
      unfold Machine.add
      rw [if_pos]
      · rfl
      · rw [List.length_append] at h0
        exact Nat.lt_of_lt_of_le h0 (Nat.pow_le_pow_right (by decide) (Nat.sub_le ..))
    rw [hadd]
    show Mirror B _ _ (μ.drive (Machine.strip (p.pre.length + p.sep.length)) sched fs >>= _)
    rw [Machine.strip_eq]
    exact Mirror.bind (Mirror.drive hμ _ sched fs hf) fun _ _ => Mirror.refl _

theorem Meets.subExec (hμ : μ.Has B) (p : Prefixed) (c : Cmd) (hs : p.Short (2 ^ (μ.width - 1)) c) :
    Meets B (Prog.subExec p c) (μ.subExec p c) := by
  cases c with
  | version => exact Meets.exec hμ .version
  | createHeader m => exact Meets.exec hμ (.createHeader m)
  | reopen => exact Meets.exec hμ .reopen
  | get k =>
    simp only [Prog.subExec, Machine.subExec, Machine.withKeyPrefix_eq p hs]
    exact (Mirror.get hμ _).replyOf _
  | put k v =>
    simp only [Prog.subExec, Machine.subExec, Machine.withKeyPrefix_eq p hs]
    exact (Mirror.put hμ _ v).replyOf _
  | putCas k v cas =>
    simp only [Prog.subExec, Machine.subExec, Machine.withKeyPrefix_eq p hs]
    exact (Mirror.putCompareAndSwap hμ _ v cas).replyOf _
  | del k =>
    simp only [Prog.subExec, Machine.subExec, Machine.withKeyPrefix_eq p hs]
    exact (Mirror.del hμ _).replyOf _
  | delCas k cas =>
    simp only [Prog.subExec, Machine.subExec, Machine.withKeyPrefix_eq p hs]
    exact (Mirror.delCompareAndSwap hμ _ cas).replyOf _
  | traverse b sched => exact (Mirror.subTraverse hμ p b sched hs).replyOf _

theorem Meets.execVia (hμ : μ.Has B) (x : Option Prefixed × Cmd) (hs : ShortVia (2 ^ (μ.width - 1)) x) :
    Meets B (Prog.execVia x) (μ.execVia x) := by
  obtain ⟨_ | p, c⟩ := x
  · exact Meets.exec hμ c
  · exact Meets.subExec hμ p c hs

end

end Hyperbee
