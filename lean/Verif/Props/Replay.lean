import Verif.Proof.Replay
import Verif.Props.Handles
/-!
# What is stored depends on the writes alone (C88)
-/

namespace Hyperbee

/-- Two histories leave the same bytes exactly if they began with the same header and made the same
writes: nothing else leaves a trace in what is written (lookups and traversals, swaps refused, handles
closed and opened, what was cached when, whether a write was a swap), and no write is forgotten or
mistaken for another. -/
theorem bytes_iff_writes (cs cs' : List Cmd) :
    (runSt cs St.init).core = (runSt cs' St.init).core ↔
      (runSt cs St.init).core.head? = (runSt cs' St.init).core.head? ∧
      effects cs (runReplies cs St.init) = effects cs' (runReplies cs' St.init) := by
  show _ ↔ _ ∧ logOf cs = logOf cs'
  constructor
  · intro h
    refine ⟨by rw [h], ?_⟩
    generalize hn : (logOf cs).length = n
    induction n generalizing cs cs' with
    | zero =>
      have h1 := logOf_length cs
      have h2 := logOf_length cs'
      rw [List.length_eq_zero_iff.mp hn]
      rw [← h] at h2
      exact (List.length_eq_zero_iff.mp (by omega)).symm
    | succ n ih =>
      have hlen : (logOf cs').length = (logOf cs).length := by rw [logOf_length, logOf_length, h]
      obtain ⟨l, w, e⟩ : ∃ l w, logOf cs = l ++ [w] :=
        ⟨_, _, (List.dropLast_concat_getLast (List.ne_nil_of_length_eq_add_one hn)).symm⟩
      obtain ⟨l', w', e'⟩ : ∃ l w, logOf cs' = l ++ [w] :=
        ⟨_, _, (List.dropLast_concat_getLast (List.ne_nil_of_length_eq_add_one (hlen.trans hn))).symm⟩
      have hl1 : l.length = n := by rw [e] at hn; simpa using hn
      have hl2 : l'.length = n := by rw [e', hn] at hlen; simpa using hlen
      have hc1 := logOf_length cs
      rw [hn] at hc1
      have hll : l = l' := by
        obtain ⟨c1, p1, p2⟩ := history_prefix cs (n + 1) (by omega)
        obtain ⟨c2, p3, p4⟩ := history_prefix cs' (n + 1) (by rw [← h]; omega)
        have h3 := ih c1 c2 (by rw [p1, p3, h]) (by rw [p2]; simp; omega)
        rw [p2, p4, e, e'] at h3
        simp only [Nat.add_sub_cancel] at h3
        rwa [List.take_append_of_le_length (by omega), List.take_append_of_le_length (by omega),
          List.take_of_length_le (by omega), List.take_of_length_le (by omega)] at h3
      subst hll
      have hg : ∀ k, lastWrite k (w :: l.reverse) = lastWrite k (w' :: l.reverse) := by
        intro k
        have h4 := (run_holds cs).get k
        have h5 := (run_holds cs').get k
        have h6 := (call_same (run_holds cs) (run_holds cs') h.symm (.get k)).1
        rw [h4, h5, (logged cs).map, (logged cs').map] at h6
        injection h6 with h6
        have e1 : (effects cs (runReplies cs St.init)).reverse = w :: l.reverse := by
          show (logOf cs).reverse = _; rw [e]; simp
        have e2 : (effects cs' (runReplies cs' St.init)).reverse = w' :: l.reverse := by
          show (logOf cs').reverse = _; rw [e']; simp
        rwa [e1, e2] at h6
      have hold : ∀ (k : Bytes) (L : List Write) q v, lastWrite k L = some (q, v) → q ≤ L.length := by
        intro k L
        induction L with
        | nil => intro q v h; cases h
        | cons x L ihL =>
          intro q v h
          unfold lastWrite at h
          split at h
          · cases x <;> cases h
            simp
          · have := ihL q v h
            simp; omega
      have hset : ∀ k v x, lastWrite k (Write.set k v :: l.reverse) = lastWrite k (x :: l.reverse) → x = .set k v := by
        intro k v x h
        have h1 : lastWrite k (Write.set k v :: l.reverse) = some (l.reverse.length + 1, v) := by
          unfold lastWrite; rw [if_pos (show (Write.set k v).key = k from rfl)]
        rw [h1] at h
        unfold lastWrite at h
        split at h
        · rename_i hk
          cases x with
          | set k' v' => cases h; cases hk; rfl
          | clear k' => cases h
        · have := hold k _ _ _ h.symm
          omega
      have hw : w = w' := by
        cases w with
        | set k v => exact (hset k v w' (hg k)).symm
        | clear k =>
          cases w' with
          | set k' v' => exact hset k' v' _ (hg k').symm
          | clear k' =>
            by_cases hk : k' = k
            · rw [hk]
            · obtain ⟨-, -, -, -, -, h7⟩ := last_write cs e
              have h8 := hg k
              unfold lastWrite at h8
              rw [if_pos (show (Write.clear k).key = k from rfl), if_neg (show ¬ (Write.clear k').key = k from hk)] at h8
              exact absurd h8.symm (h7 k rfl)
      rw [e, e', hw]
  · rintro ⟨hh, hl⟩
    generalize hn : (logOf cs).length = n
    induction n generalizing cs cs' with
    | zero =>
      have h1 := logOf_length cs
      have h2 := logOf_length cs'
      rw [← hl] at h2
      rw [hn] at h1 h2
      revert hh
      generalize (runSt cs St.init).core = c1 at h1 ⊢
      generalize (runSt cs' St.init).core = c2 at h2 ⊢
      rcases c1 with _ | ⟨x, _ | ⟨y, c1⟩⟩
      · rcases c2 with _ | ⟨x', _ | ⟨y', c2⟩⟩
        · intro _; rfl
        · intro h; cases h
        · simp at h2
      · rcases c2 with _ | ⟨x', _ | ⟨y', c2⟩⟩
        · intro h; cases h
        · intro h; cases h; rfl
        · simp at h2
      · simp at h1
    | succ n ih =>
      obtain ⟨l, w, e⟩ : ∃ l w, logOf cs = l ++ [w] :=
        ⟨_, _, (List.dropLast_concat_getLast (List.ne_nil_of_length_eq_add_one hn)).symm⟩
      obtain ⟨c0, p1, p2, p3, p4, -⟩ := last_write cs e
      obtain ⟨c0', q1, q2, q3, q4, -⟩ := last_write cs' (hl ▸ e)
      have h3 := ih c0 c0' (by rw [p3, q3, hh]) (by rw [p1, q1]) (by rw [p1]; rw [e] at hn; simpa using hn)
      rw [p4, q4]
      exact (call_same (run_holds c0) (run_holds c0') h3.symm _).2

/-- Every database can be made again, byte for byte: write the header, then repeat its writes as plain
puts and deletions. -/
theorem replay (cs : List Cmd) (hne : (runSt cs St.init).core ≠ []) :
    ∃ m, (runSt (.createHeader m :: (effects cs (runReplies cs St.init)).map Write.again) St.init).core =
      (runSt cs St.init).core := by
  show ∃ m, (runSt (_ :: (logOf cs).map _) _).core = _
  generalize hn : (logOf cs).length = n
  induction n generalizing cs with
  | zero =>
    rw [List.length_eq_zero_iff.mp hn]
    have hlen := logOf_length cs
    rw [hn] at hlen
    suffices h : ∃ m, (runSt cs St.init).core = [encodeHeader ⟨PROTOCOL, m⟩] by
      obtain ⟨m, h⟩ := h
      exact ⟨m, (createHeader_init m).1.trans h.symm⟩
    clear hn
    induction cs using snocInd with
    | nil => exact absurd rfl hne
    | snoc cs c ih =>
      rw [runSt_snoc] at hne hlen ⊢
      rcases (exec_step (run_holds cs) c).core_cases with ⟨h, e⟩ | ⟨h0, ⟨m, h⟩, e⟩ | ⟨b, h, h1, w, e⟩ | ⟨h0, b, h, w, e⟩
      · rw [h] at hne hlen ⊢; exact ih hne hlen
      · exact ⟨m, h⟩
      · rw [h] at hlen; simp at hlen; omega
      · rw [h] at hlen; simp at hlen
  | succ n ih =>
    obtain ⟨l, w, e⟩ : ∃ l w, logOf cs = l ++ [w] :=
      ⟨_, _, (List.dropLast_concat_getLast (List.ne_nil_of_length_eq_add_one hn)).symm⟩
    obtain ⟨c0, p1, p2, p3, p4, -⟩ := last_write cs e
    obtain ⟨m, h⟩ := ih c0 p2 (by rw [p1]; rw [e] at hn; simpa using hn)
    refine ⟨m, ?_⟩
    rw [e, p4, List.map_append, ← List.cons_append, runSt_append]
    rw [p1] at h
    exact (call_same (run_holds c0) (run_holds (_ :: l.map _)) h _).2.symm

/-- The same for histories in which several handles take turns, each with its own cache. -/
theorem bytes_iff_writes_handles (cs cs' : List (Nat × Cmd)) :
    (World.run cs World.init).2.core = (World.run cs' World.init).2.core ↔
      (World.run cs World.init).2.core.head? = (World.run cs' World.init).2.core.head? ∧
      effects (cs.map (·.2)) (World.run cs World.init).1 = effects (cs'.map (·.2)) (World.run cs' World.init).1 := by
  rw [(handles_agree cs).1, (handles_agree cs).2, (handles_agree cs').1, (handles_agree cs').2]
  exact bytes_iff_writes _ _

/-- Two different histories, one with lookups, a deletion of nothing, refused swaps and reopenings,
that make the same writes. -/
example : (runSt [.createHeader none, .put [1] none, .put [2] (some [7]), .del [1]] St.init).core =
    (runSt [.get [1], .putCas [1] none (fun o _ => o.isNone), .del [9], .reopen, .putCas [2] (some [7]) (fun _ n => n.seq == 2),
      .putCas [2] none (fun _ _ => false), .delCas [1] (fun o => o.seq == 1), .version] St.init).core :=
  (bytes_iff_writes _ _).mpr ⟨by decide +kernel, by decide +kernel⟩

end Hyperbee
