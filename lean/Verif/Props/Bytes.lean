import Verif.Proof.Lengths
/-!
# How many bytes a write appends

Property C76.
-/

namespace Hyperbee

/-- C76.  A write on a tree of `h` levels appends one block (before it, on an empty core, the header of ten
bytes) that is no longer than its key, its value, 268 bytes for each of at most `2 * h + 1` nodes, and
33 more. -/
theorem write_bytes {s : St} (hs : Reachable s) {c : Cmd} {w : Write} (he : effect c (exec c s).1 = some w) {h : Nat}
    (hh : HasLevels s.core h) (hf : CoreFits (exec c s).2.core) :
    ∃ hdr b, (exec c s).2.core = s.core ++ hdr ++ [b] ∧ (s.core ≠ [] → hdr = []) ∧ hdr.flatten.length ≤ 10 ∧
      b.length ≤ w.stored.1.length + (w.stored.2.getD []).length + 268 * (2 * h + 1) + 33 := by
  obtain ⟨hdr, b, nodes, m, h1, h2, h3, h4, h5⟩ := write_format hs he
  obtain ⟨m', ls, g1, g2, g3⟩ := write_size hs (c := c) (by rw [he]; simp) hh
  rw [h5] at g1
  cases g1
  have hlen : (exec c s).2.core.length = s.core.length + hdr.length + 1 := by rw [h1]; simp; omega
  have hpos : 1 ≤ (exec c s).2.core.length - 1 := by
    rcases h2 with ⟨h, _⟩ | ⟨_, x, rfl, _⟩
    · have := List.length_pos_iff.mpr h; omega
    · simp at hlen; omega
  have hb := h3.eq
  have hlast : (exec c s).2.core[(exec c s).2.core.length - 1]? = some b := by
    rw [hlen, h1, List.getElem?_append_right (by simp)]
    simp
  have hfit := fits_numbers (hs.step c) hf hpos (by omega) (hb ▸ hlast)
  obtain ⟨m'', ls'', w1, _, w3⟩ := (hs.step c).sound hpos (by omega)
  rw [h5] at w1
  cases w1
  have hbl := hf.bytes b (List.mem_of_getElem? hlast)
  refine ⟨hdr, b, h1, ?_, ?_, ?_⟩
  · intro hne
    rcases h2 with ⟨_, h⟩ | ⟨h, _⟩
    · exact h
    · exact absurd h hne
  · rcases h2 with ⟨_, rfl⟩ | ⟨_, x, rfl, hx⟩
    · simp
    · have : x = encodeHeader ⟨PROTOCOL, none⟩ := 
        format_header_unique hx (Wire.header_encode PROTOCOL none)
      rw [this]; decide
  · have := block_len (k := w.stored.1) (v := w.stored.2) hfit (by
      intro n hn
      obtain ⟨p, hp, rfl⟩ := List.mem_map.mp hn
      have hl : Wire.levelOf p ∈ nodes.map Wire.levelOf := List.mem_map.mpr ⟨p, hp, rfl⟩
      have := g3 _ hl
      refine ⟨this, ?_⟩
      rcases w3.count _ hl with hc | hc
      · simp only [Wire.levelOf, List.flatMap_eq_nil_iff] at hc
        have : p.2 = [] := List.eq_nil_iff_forall_not_mem.mpr fun x hx => by simpa using hc x hx
        simp [this]
      · rw [Wire.levelOf, pairs_len] at hc
        rw [Wire.levelOf] at this
        rw [List.length_map]
        simp only at hc this
        omega) (hb ▸ hbl)
    rw [← hb] at this
    rw [List.length_map] at this g2
    omega

/-- C76.  Block `q` of any database is no longer than its key, its value, and a number of bytes that grows with the
logarithm of `q`. -/
theorem block_bytes {s : St} (hs : Reachable s) (hf : CoreFits s.core) {q : Nat} (h1 : 1 ≤ q) {b : Bytes}
    (hb : s.core[q]? = some b) : ∃ m ls, wireBlock s.core q = some (m, ls) ∧
      b.length ≤ m.key.length + (m.value.getD []).length + 536 * Nat.log 5 q + 837 := by
  obtain ⟨cs, rfl⟩ := hs
  suffices ∀ (n : Nat) (cs : List Cmd), cs.length = n → CoreFits (runSt cs St.init).core → ∀ {q : Nat}, 1 ≤ q → ∀ {b : Bytes},
      (runSt cs St.init).core[q]? = some b → ∃ m ls, wireBlock (runSt cs St.init).core q = some (m, ls) ∧
        b.length ≤ m.key.length + (m.value.getD []).length + 536 * Nat.log 5 q + 837 from
    this _ cs rfl hf h1 hb
  clear hb h1 hf b q cs
  intro n
  induction n with
  | zero =>
    intro cs hn _ q _ b hb
    rw [List.eq_nil_of_length_eq_zero hn] at hb
    simp [runSt, run, St.init, St.open] at hb
  | succ n ih =>
    intro cs hn hf q h1 b hb
    obtain ⟨cs', c, rfl⟩ : ∃ cs' c, cs = cs' ++ [c] := by
      have : cs ≠ [] := by intro e; rw [e] at hn; cases hn
      exact ⟨cs.dropLast, cs.getLast this, (List.dropLast_append_getLast this).symm⟩
    rw [runSt_snoc] at hb hf ⊢
    have hn' : cs'.length = n := by simpa using hn
    have hr : Reachable (runSt cs' St.init) := ⟨cs', rfl⟩
    -- an older block
    have old : ∀ more, (exec c (runSt cs' St.init)).2.core = (runSt cs' St.init).core ++ more →
        q < (runSt cs' St.init).core.length → ∃ m ls, wireBlock (exec c (runSt cs' St.init)).2.core q = some (m, ls) ∧
        b.length ≤ m.key.length + (m.value.getD []).length + 536 * Nat.log 5 q + 837 := by
      intro more hm hq
      have hb' : (runSt cs' St.init).core[q]? = some b := by
        rw [hm, List.getElem?_append_left hq] at hb; exact hb
      obtain ⟨m, ls, h2, h3⟩ := ih cs' hn' ⟨by have := hf.blocks; rw [hm] at this; simp at this; omega,
        fun x hx => hf.bytes x (by rw [hm]; simp [hx])⟩ h1 hb'
      refine ⟨m, ls, ?_, h3⟩
      unfold wireBlock at h2 ⊢
      rwa [hb, ← hb']
    have hlt := (List.getElem?_eq_some_iff.mp hb).1
    cases he : effect c (exec c (runSt cs' St.init)).1 with
    | none =>
      obtain ⟨d, hd⟩ := hr.holds
      cases exec_step hd c with
      | same h _ => exact old [] (by rw [h]; simp) (by rwa [h] at hlt)
      | header m h0 h _ => rw [h] at hlt; simp at hlt; omega
      | first _ _ _ _ e => rw [he] at e; cases e
      | put _ _ _ _ _ _ _ _ _ _ e => rw [he] at e; cases e
      | del _ _ _ _ _ _ _ _ _ e => rw [he] at e; cases e
    | some w =>
      obtain ⟨h, hh, hle⟩ := levels_few hr
      obtain ⟨hdr, b', e1, e2, e3, e4⟩ := write_bytes hr he hh hf
      obtain ⟨hdr', b'', nodes, m, h1', h2', h3', -, h5'⟩ := write_format hr he
      have hlen : (exec c (runSt cs' St.init)).2.core.length = (runSt cs' St.init).core.length + hdr'.length + 1 := by
        rw [h1']; simp; omega
      by_cases hq : q < (runSt cs' St.init).core.length
      · exact old _ (by rw [h1', List.append_assoc]) hq
      have hq' : q = (exec c (runSt cs' St.init)).2.core.length - 1 := by
        rcases h2' with ⟨_, rfl⟩ | ⟨h0, x, rfl, _⟩
        · simp at hlen; omega
        · rw [h0] at hlen; simp at hlen; omega
      have hb1 : b = b' := by
        have := e1 ▸ hb
        rw [hq', e1] at this
        simpa [List.getElem?_append_right] using this.symm
      have hb2 : b = b'' := by
        have := h1' ▸ hb
        rw [hq', h1'] at this
        simpa [List.getElem?_append_right] using this.symm
      have hk : m.key = w.stored.1 ∧ m.value = w.stored.2 := by
        have hbe := h3'.eq
        rw [← hq'] at h5'
        unfold wireBlock at h5'
        rw [hb, hb2, hbe] at h5'
        simp only [encodeBlock, decodeNode_encodeNode, decodeYolo_encodeYolo, Option.some.injEq, Prod.mk.injEq] at h5'
        rw [← h5'.1]
        exact ⟨rfl, rfl⟩
      refine ⟨m, _, hq' ▸ h5', ?_⟩
      rw [hb1, hk.1, hk.2]
      have hl : h ≤ Nat.log 5 q + 1 :=
        Nat.le_trans hle (Nat.succ_le_succ (Nat.log_mono_right (Nat.le_of_not_lt hq)))
      have : 268 * (2 * h + 1) ≤ 536 * Nat.log 5 q + 804 := by clear * - hl; omega
      exact Nat.le_trans e4 (by clear * - this; omega)

/-- C76.  All that a history of `n` effective writes has left in storage behind the header: the keys and values that
were written, and a number of bytes per write that grows with the logarithm of `n`. -/
theorem core_bytes (cs : List Cmd) (hf : CoreFits (runSt cs St.init).core) :
    let ws := effects cs (runReplies cs St.init)
    ((runSt cs St.init).core.drop 1).flatten.length ≤
      (ws.map fun w => w.stored.1.length + (w.stored.2.getD []).length).sum + ws.length * (536 * Nat.log 5 ws.length + 837) := by
  suffices ∀ (n : Nat) (cs : List Cmd), cs.length = n → CoreFits (runSt cs St.init).core →
      (runSt cs St.init).core.length ≤ (effects cs (runReplies cs St.init)).length + 1 ∧
      ((runSt cs St.init).core.drop 1).flatten.length ≤
        ((effects cs (runReplies cs St.init)).map fun w => w.stored.1.length + (w.stored.2.getD []).length).sum +
        (effects cs (runReplies cs St.init)).length * (536 * Nat.log 5 (effects cs (runReplies cs St.init)).length + 837) from
    (this _ cs rfl hf).2
  clear hf cs
  intro n
  induction n with
  | zero =>
    intro cs hn _
    rw [List.eq_nil_of_length_eq_zero hn]
    exact ⟨Nat.zero_le _, Nat.zero_le _⟩
  | succ n ih =>
    intro cs hn hf
    obtain ⟨cs', c, rfl⟩ : ∃ cs' c, cs = cs' ++ [c] := by
      have : cs ≠ [] := by intro e; rw [e] at hn; cases hn
      exact ⟨cs.dropLast, cs.getLast this, (List.dropLast_append_getLast this).symm⟩
    have hn' : cs'.length = n := by simpa using hn
    have hr : Reachable (runSt cs' St.init) := ⟨cs', rfl⟩
    have heff : effects (cs' ++ [c]) (runReplies (cs' ++ [c]) St.init) =
        effects cs' (runReplies cs' St.init) ++ (effect c (exec c (runSt cs' St.init)).1).toList := by
      rw [runReplies_append, effects_append _ _ _ _ (runReplies_length cs' St.init)]
      exact congrArg _ (List.append_nil _)
    rw [heff]
    rw [runSt_snoc] at hf ⊢
    have hfits : ∀ more, (exec c (runSt cs' St.init)).2.core = (runSt cs' St.init).core ++ more → CoreFits (runSt cs' St.init).core :=
      fun more hm => ⟨by have := hf.blocks; rw [hm] at this; simp at this; omega,
        fun x hx => hf.bytes x (by rw [hm]; simp [hx])⟩
    cases he : effect c (exec c (runSt cs' St.init)).1 with
    | none =>
      simp only [Option.toList_none, List.append_nil]
      obtain ⟨d, hd⟩ := hr.holds
      cases exec_step hd c with
      | same h _ => rw [h]; exact ih cs' hn' (hfits [] (by rw [h]; simp))
      | header m h0 h _ =>
        rw [h]
        exact ⟨by simp, Nat.zero_le _⟩
      | first _ _ _ _ e => rw [he] at e; cases e
      | put _ _ _ _ _ _ _ _ _ _ e => rw [he] at e; cases e
      | del _ _ _ _ _ _ _ _ _ e => rw [he] at e; cases e
    | some w =>
      obtain ⟨h, hh, hle⟩ := levels_few hr
      obtain ⟨hdr, b, e1, e2, _, e4⟩ := write_bytes hr he hh hf
      obtain ⟨hdr', b', _, _, h1', h2', _, _, _⟩ := write_format hr he
      have hhdr : hdr = hdr' := by
        rw [h1', List.append_assoc, List.append_assoc] at e1
        have := List.append_cancel_left e1
        have := congrArg List.dropLast this
        simpa using this.symm
      obtain ⟨i1, i2⟩ := ih cs' hn' (hfits (hdr ++ [b]) (by rw [e1, List.append_assoc]))
      generalize effects cs' (runReplies cs' St.init) = ws at *
      generalize (runSt cs' St.init).core = core at *
      simp only [Option.toList_some, List.length_append, List.length_singleton, List.map_append, List.map_cons, List.map_nil,
        List.sum_append, List.sum_cons, List.sum_nil, Nat.add_zero]
      have hl : h ≤ Nat.log 5 (ws.length + 1) + 1 := Nat.le_trans hle (Nat.succ_le_succ (Nat.log_mono_right i1))
      have hm : Nat.log 5 ws.length ≤ Nat.log 5 (ws.length + 1) := Nat.log_mono_right (Nat.le_succ _)
      have hmul : ws.length * (536 * Nat.log 5 ws.length + 837) ≤ ws.length * (536 * Nat.log 5 (ws.length + 1) + 837) :=
        Nat.mul_le_mul_left _ (by omega)
      have hb : b.length ≤ w.stored.1.length + (w.stored.2.getD []).length + (536 * Nat.log 5 (ws.length + 1) + 837) :=
        Nat.le_trans e4 (by clear * - hl; omega)
      rw [e1, Nat.succ_mul]
      have hi := Nat.le_trans i2 (Nat.add_le_add_left hmul _)
      clear hmul e4 i2
      obtain ⟨A, hA⟩ : ∃ A, A = 536 * Nat.log 5 (ws.length + 1) + 837 := ⟨_, rfl⟩
      rw [← hA] at hb hi ⊢
      generalize ws.length * A = B at *
      generalize (ws.map fun w => w.stored.1.length + (w.stored.2.getD []).length).sum = C at *
      rcases h2' with ⟨h0, h3⟩ | ⟨h0, x, h3, _⟩
      · rw [hhdr, h3]
        have hlen : 1 ≤ core.length := List.length_pos_iff.mpr h0
        refine ⟨by simp; omega, ?_⟩
        rw [List.append_nil, List.drop_append_of_le_length hlen, List.flatten_append, List.length_append]
        simp only [List.flatten_cons, List.flatten_nil, List.append_nil]
        clear * - hi hb
        omega
      · rw [hhdr, h3, h0]
        refine ⟨by simp, ?_⟩
        simp only [List.nil_append, List.singleton_append, List.drop_succ_cons, List.drop_zero, List.flatten_cons, List.flatten_nil,
          List.append_nil]
        clear * - hb
        omega

/-- The lengths of the first blocks of a history whose ninth put splits the root: the header has 10 bytes, the split
32, of which one is its key's. -/
example : ((runSt ascending St.init).core.map List.length).take 11 = [10, 10, 11, 12, 13, 14, 15, 16, 17, 32, 25] ∧
    (∀ b ∈ (runSt ascending St.init).core, b.length < 2 ^ 64) := by decide +kernel

/-- A write that meets the hypotheses of `write_bytes`: the split, on a tree of one level. -/
example : effect (.put (demoKey 8) none) (exec (.put (demoKey 8) none) (runSt (ascending.take 8) St.init)).1 =
      some (.set (demoKey 8) none) ∧
    ((exec (.put (demoKey 8) none) (runSt (ascending.take 8) St.init)).2.core.map List.length) =
      [10, 10, 11, 12, 13, 14, 15, 16, 17, 32] := by decide +kernel

end Hyperbee
