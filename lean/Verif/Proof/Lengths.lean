import Verif.Props.Lazy
import Verif.Props.Wire
/-!
# Lengths of encodings

Lemmas for C76: how long the encoding of a number, a field, a node and a block is.
-/

namespace Hyperbee

theorem varintF_len : ∀ (j fuel n : Nat), n < 128 ^ (j + 1) → (encodeVarintF fuel n).length ≤ j + 1
  | _, 0, _, _ => by simp [encodeVarintF]
  | 0, fuel + 1, n, h => by
    rw [encodeVarintF, if_pos (by simpa using h)]; simp
  | j + 1, fuel + 1, n, h => by
    rw [encodeVarintF]
    split
    · simp
    · have := varintF_len j fuel (n / 128) (by
        rw [Nat.div_lt_iff_lt_mul (by omega)]
        rw [Nat.pow_succ] at h; exact h)
      simpa using this

theorem varint_len {n : Nat} (j : Nat) (h : n < 128 ^ (j + 1)) : (encodeVarint n).length ≤ j + 1 := varintF_len j n n h

theorem lenField_len {tag : Nat} {bs : Bytes} (j : Nat) (ht : tag < 15) (h : bs.length < 128 ^ (j + 1)) :
    (encodeLenField tag bs).length ≤ bs.length + j + 2 := by
  have h1 := varint_len (n := tag * 8 + 2) 0 (by simp; omega)
  have h2 := varint_len j h
  simp only [encodeLenField, encodeKeyLen, List.length_append]
  omega

theorem varints_len : ∀ {ns : List Nat}, (∀ n ∈ ns, n < 2 ^ 64) → (ns.flatMap encodeVarint).length ≤ 10 * ns.length
  | [], _ => by simp
  | n :: ns, h => by
    have h1 := varint_len (n := n) 9 (Nat.lt_of_lt_of_le (h n (by simp)) (by decide))
    have h2 := varints_len (ns := ns) fun m hm => h m (by simp [hm])
    simp only [List.flatMap_cons, List.length_append, List.length_cons]
    omega

theorem packed_len {tag : Nat} {ns : List Nat} (j : Nat) (ht : tag < 15) (h : ∀ n ∈ ns, n < 2 ^ 64)
    (hl : 10 * ns.length < 128 ^ (j + 1)) : (encodePacked tag ns).length ≤ 10 * ns.length + j + 2 := by
  unfold encodePacked
  split
  · simp
  · have h1 := varints_len h
    have := lenField_len (tag := tag) (bs := ns.flatMap encodeVarint) j ht (by omega)
    omega

theorem level_len {l : Level} (hk : l.keys.length ≤ 8) (hc : l.children.length ≤ 18)
    (h1 : ∀ n ∈ l.keys, n < 2 ^ 64) (h2 : ∀ n ∈ l.children, n < 2 ^ 64) : (encodeLevel l).length ≤ 265 := by
  have a := packed_len (tag := 1) 0 (by omega) h1 (by simp; omega)
  have b := packed_len (tag := 2) 1 (by omega) h2 (by simp; omega)
  simp only [encodeLevel, List.length_append]
  omega

theorem yolo_len : ∀ {ls : List Level}, (∀ l ∈ ls, l.keys.length ≤ 8 ∧ l.children.length ≤ 18 ∧
    (∀ n ∈ l.keys, n < 2 ^ 64) ∧ ∀ n ∈ l.children, n < 2 ^ 64) → (encodeYolo ls).length ≤ 268 * ls.length
  | [], _ => by simp [encodeYolo]
  | l :: ls, h => by
    obtain ⟨a, b, c, d⟩ := h l (by simp)
    have h1 := level_len a b c d
    have h2 := lenField_len (tag := 1) (bs := encodeLevel l) 1 (by omega) (by simp; omega)
    have h3 := yolo_len (ls := ls) fun m hm => h m (by simp [hm])
    simp only [encodeYolo, List.flatMap_cons, List.length_append, List.length_cons] at h3 ⊢
    omega

theorem pairs_len {α : Type} (f g : α → Nat) : ∀ cs : List α, (cs.flatMap fun c => [f c, g c]).length = 2 * cs.length
  | [] => rfl
  | c :: cs => by
    have := pairs_len f g cs
    simp only [List.flatMap_cons, List.length_append, List.length_cons, List.length_nil] at this ⊢
    omega

theorem block_len {k : Bytes} {v : Option Bytes} {ns : List Node} (hf : ∀ n ∈ ns, n.Fits)
    (hk : ∀ n ∈ ns, n.keys.length ≤ 8 ∧ n.children.length ≤ 9) (hl : (encodeBlock k v ns).length < 2 ^ 64) :
    (encodeBlock k v ns).length ≤ k.length + (v.getD []).length + 268 * ns.length + 33 := by
  have h1 : (encodeYolo (ns.map toLevel)).length ≤ 268 * ns.length := by
    have := yolo_len (ls := ns.map toLevel) (by
      intro l hl
      obtain ⟨n, hn, rfl⟩ := List.mem_map.mp hl
      obtain ⟨a, b⟩ := hk n hn
      refine ⟨a, ?_, (hf n hn).1, ?_⟩
      · rw [toLevel, pairs_len]; omega
      · intro x hx
        simp only [toLevel, List.mem_flatMap, List.mem_cons, List.not_mem_nil, or_false] at hx
        obtain ⟨c, hc, hx⟩ := hx
        have := (hf n hn).2 c hc
        rcases hx with rfl | rfl
        · exact this.1
        · exact this.2)
    rwa [List.length_map] at this
  simp only [encodeBlock, encodeNode, List.length_append] at hl ⊢
  have hself : ∀ (tag : Nat) (b : Bytes), b.length ≤ (encodeLenField tag b).length := by
    intro tag b; simp only [encodeLenField, List.length_append]; omega
  have a1 := hself 1 (encodeYolo (ns.map toLevel))
  have a2 := hself 2 k
  have b1 := lenField_len (tag := 1) (bs := encodeYolo (ns.map toLevel)) 9 (by omega)
    (Nat.lt_of_lt_of_le (m := 2 ^ 64) (by omega) (by decide))
  have b2 := lenField_len (tag := 2) (bs := k) 9 (by omega) (Nat.lt_of_lt_of_le (m := 2 ^ 64) (by omega) (by decide))
  cases v with
  | none => simp only [encodeOptLen, Option.getD_none, List.length_nil]; omega
  | some x =>
    have a3 := hself 3 x
    simp only [encodeOptLen, Option.getD_some] at hl ⊢
    have b3 := lenField_len (tag := 3) (bs := x) 9 (by omega) (Nat.lt_of_lt_of_le (m := 2 ^ 64) (by omega) (by decide))
    omega

theorem TreeAt.entries_lt {c : List Bytes} {H : Nat} {t : T} (ht : TreeAt c H t) : t.flat.length ≤ c.length - 1 := by
  have hn : t.flat.Nodup := ht.srt.imp fun {a b} h e => by rw [e] at h; exact absurd h (List.lt_irrefl _)
  have hsub : t.flat ⊆ List.range' 1 (c.length - 1) := by
    intro q hq
    obtain ⟨b, hb⟩ := ht.dfd q hq
    have := blockAt_lt hb
    have := ht.pos q hq
    rw [List.mem_range'_1]
    omega
  have := (hn.subperm hsub).length_le
  rwa [List.length_range'] at this

/-- The levels of the tree before block `q` was written. -/
theorem levels_few {s : St} (hs : Reachable s) : ∃ h, HasLevels s.core h ∧ h ≤ Nat.log 5 s.core.length + 1 := by
  obtain ⟨h, hh⟩ := has_levels hs
  refine ⟨h, hh, ?_⟩
  rcases hh with ⟨_, rfl⟩ | ⟨t, ht, hd⟩
  · omega
  · have h1 := levels_log hs ht hd
    obtain ⟨H, u, hu, he⟩ := hs.treeAt ht
    have h2 := hu.entries_lt
    have h3 : t.inorder.length = u.flat.length := by rw [he, spec_inorder, List.length_map]
    have := Nat.log_mono_right (b := 5) (show (t.inorder.length + 1) / 2 ≤ s.core.length by omega)
    omega

end Hyperbee
