import Verif.SpecWire
import Verif.Proof.Codec64
/-!
# Lemmas about the wire format
-/

namespace Hyperbee.Wire

/-! ## Numbers -/

theorem varint_single {b : UInt8} {n : Nat} : Varint n [b] ↔ b.toNat < 128 ∧ n = b.toNat := by
  constructor
  · rintro ⟨h1, -, b', h2, h3⟩
    simp only [List.getLast?_singleton, Option.some.injEq] at h2
    subst h2
    refine ⟨h3, ?_⟩
    simp only [groups] at h1
    omega
  · rintro ⟨h1, rfl⟩
    refine ⟨?_, by simp, b, by simp, h1⟩
    simp only [groups]
    omega

theorem varint_cons {b c : UInt8} {bs : Bytes} {n : Nat} :
    Varint n (b :: c :: bs) ↔ 128 ≤ b.toNat ∧ ∃ m, Varint m (c :: bs) ∧ n = b.toNat - 128 + 128 * m := by
  have hb := b.toNat_lt
  constructor
  · rintro ⟨h1, h2, b', h3, h4⟩
    have h5 : 128 ≤ b.toNat := h2 b (by simp)
    refine ⟨h5, groups (c :: bs), ⟨rfl, fun x hx => h2 x ?_, b', by simpa using h3, h4⟩, ?_⟩
    · rw [List.dropLast_cons_of_ne_nil (by simp)]; exact List.mem_cons_of_mem _ hx
    · rw [← h1]
      simp only [groups]
      omega
  · rintro ⟨h1, m, ⟨h2, h3, b', h4, h5⟩, rfl⟩
    refine ⟨?_, fun x hx => ?_, b', by simpa using h4, h5⟩
    · rw [groups, h2]
      omega
    · rw [List.dropLast_cons_of_ne_nil (by simp)] at hx
      rcases List.mem_cons.mp hx with rfl | hx
      · exact h1
      · exact h3 x hx

theorem Varint.ne_nil {n : Nat} {bs : Bytes} (h : Varint n bs) : bs ≠ [] := by
  rintro rfl
  obtain ⟨b, h1, -⟩ := h.last
  simp at h1

theorem varint_of_decode : ∀ (bs : Bytes) (c : Nat) {n : Nat} {rest : Bytes}, decodeVarint64From c bs = some (n, rest) →
    ∃ x, Varint n x ∧ x.length + c ≤ 10 ∧ bs = x ++ rest := by
  intro bs
  induction bs with
  | nil => intro c n rest h; cases h
  | cons b bs ih =>
    intro c n rest h
    unfold decodeVarint64From at h
    split at h
    · cases h
    · rename_i hc
      split at h
      · rename_i hb
        split at h
        · cases h
        · cases h
          exact ⟨[b], varint_single.mpr ⟨hb, rfl⟩, by simp; omega, rfl⟩
      · rename_i hb
        cases hr : decodeVarint64From (c + 1) bs with
        | none => rw [hr] at h; cases h
        | some y =>
          rw [hr] at h
          cases h
          obtain ⟨x, h1, h2, h3⟩ := ih (c + 1) hr
          obtain ⟨d, x, rfl⟩ := List.exists_cons_of_ne_nil h1.ne_nil
          refine ⟨b :: d :: x, varint_cons.mpr ⟨by omega, _, h1, rfl⟩, ?_, by rw [h3]; rfl⟩
          simp only [List.length_cons] at h2 ⊢
          omega

theorem decode_of_varint : ∀ (x : Bytes) (c : Nat) {n : Nat} (rest : Bytes), Varint n x → x.length + c ≤ 10 →
    n < 2 ^ (64 - 7 * c) → decodeVarint64From c (x ++ rest) = some (n, rest) := by
  intro x
  induction x with
  | nil => intro c n rest h; exact absurd rfl h.ne_nil
  | cons b x ih =>
    intro c n rest h hl hn
    have hc' : c = 0 ∨ c = 1 ∨ c = 2 ∨ c = 3 ∨ c = 4 ∨ c = 5 ∨ c = 6 ∨ c = 7 ∨ c = 8 ∨ c = 9 := by
      simp only [List.length_cons] at hl; omega
    unfold decodeVarint64From
    rw [List.cons_append]
    dsimp only
    rw [if_neg (by omega)]
    cases x with
    | nil =>
      obtain ⟨h1, rfl⟩ := varint_single.mp h
      rw [if_pos h1, if_neg]
      · rfl
      · rintro ⟨rfl, h2⟩
        simp at hn
        omega
    | cons d x =>
      obtain ⟨h1, m, h2, rfl⟩ := varint_cons.mp h
      rw [if_neg (by omega), ih (c + 1) rest h2 (by simp only [List.length_cons] at hl ⊢; omega)]
      rcases hc' with rfl | rfl | rfl | rfl | rfl | rfl | rfl | rfl | rfl | rfl <;> simp at hn hl ⊢ <;> omega

theorem decodeVarint64_iff {bs : Bytes} {n : Nat} {rest : Bytes} :
    decodeVarint64 bs = some (n, rest) ↔ ∃ x, Varint64 n x ∧ bs = x ++ rest := by
  constructor
  · intro h
    obtain ⟨x, h1, h2, h3⟩ := varint_of_decode bs 0 h
    exact ⟨x, ⟨h1, h2, (varint64_lt bs 0 h).2⟩, h3⟩
  · rintro ⟨x, h, rfl⟩
    exact decode_of_varint x 0 rest h.toVarint h.bytes h.bound

/-- The bytes of a number are determined. -/
theorem Shortest.unique {n : Nat} {x y : Bytes} (hx : Shortest n x) (hy : Shortest n y) : x = y := by
  induction x generalizing n y with
  | nil => exact absurd rfl hx.ne_nil
  | cons b x ih =>
    cases y with
    | nil => exact absurd rfl hy.ne_nil
    | cons c y =>
      have hb := b.toNat_lt
      have hc := c.toNat_lt
      have pos : ∀ {m : Nat} {d : UInt8} {z : Bytes}, Varint m (d :: z) → (d :: z).getLast? ≠ some 0 → 0 < m := by
        intro m d z
        induction z generalizing d m with
        | nil =>
          intro h h'
          obtain ⟨h1, rfl⟩ := varint_single.mp h
          simp only [List.getLast?_singleton, ne_eq, Option.some.injEq] at h'
          refine Nat.pos_of_ne_zero fun h0 => h' ?_
          exact UInt8.toNat_inj.mp h0
        | cons e z ihz =>
          intro h h'
          obtain ⟨h1, k, h2, rfl⟩ := varint_cons.mp h
          have := ihz h2 (by simpa using h')
          omega
      cases x with
      | nil =>
        obtain ⟨h1, rfl⟩ := varint_single.mp hx.toVarint
        cases y with
        | nil =>
          obtain ⟨h2, h3⟩ := varint_single.mp hy.toVarint
          rw [UInt8.toNat_inj.mp h3]
        | cons e y =>
          obtain ⟨h2, m, h3, h4⟩ := varint_cons.mp hy.toVarint
          have := pos h3 (by simpa using hy.short (by simp))
          omega
      | cons d x =>
        obtain ⟨h1, m, h2, rfl⟩ := varint_cons.mp hx.toVarint
        have hxs : Shortest m (d :: x) := ⟨h2, fun _ => by simpa using hx.short (by simp)⟩
        cases y with
        | nil =>
          obtain ⟨h3, h4⟩ := varint_single.mp hy.toVarint
          have := pos h2 (by simpa using hx.short (by simp))
          omega
        | cons e y =>
          obtain ⟨h3, k, h4, h5⟩ := varint_cons.mp hy.toVarint
          have : m = k := by omega
          subst this
          have : b = c := UInt8.toNat_inj.mp (by omega)
          subst this
          rw [ih hxs ⟨h4, fun _ => by simpa using hy.short (by simp)⟩]

theorem shortest_encodeF : ∀ (fuel n : Nat), n ≤ fuel → Shortest n (encodeVarintF fuel n) ∧
    (n ≠ 0 → (encodeVarintF fuel n).getLast? ≠ some 0) := by
  intro fuel
  induction fuel with
  | zero =>
    intro n h
    obtain rfl : n = 0 := by omega
    exact ⟨⟨varint_single.mpr ⟨by decide, rfl⟩, by simp [encodeVarintF]⟩, by simp⟩
  | succ fuel ih =>
    intro n h
    unfold encodeVarintF
    split
    · rename_i h1
      have h2 : (UInt8.ofNat n).toNat = n := by simp; omega
      refine ⟨⟨varint_single.mpr ⟨by omega, h2.symm⟩, by simp⟩, fun h0 h3 => h0 ?_⟩
      simp only [List.getLast?_singleton, Option.some.injEq] at h3
      rw [h3] at h2
      exact h2.symm
    · rename_i h1
      obtain ⟨h2, h3⟩ := ih (n / 128) (by omega)
      have h4 : (UInt8.ofNat (n % 128 + 128)).toNat = n % 128 + 128 := by simp; omega
      obtain ⟨d, x, hx⟩ := List.exists_cons_of_ne_nil h2.ne_nil
      rw [hx] at h2 h3 ⊢
      have h5 := h3 (by omega)
      refine ⟨⟨varint_cons.mpr ⟨by omega, _, h2.toVarint, by omega⟩, fun _ => by simpa using h5⟩, fun _ => by simpa using h5⟩

theorem shortest_encode (n : Nat) : Shortest n (encodeVarint n) := (shortest_encodeF n n (Nat.le_refl _)).1

/-! ## What is written -/

theorem Len.unique {tag : UInt8} {p x y : Bytes} (hx : Len tag p x) (hy : Len tag p y) : x = y := by
  obtain ⟨l, h1, rfl⟩ := hx
  obtain ⟨l', h2, rfl⟩ := hy
  rw [h1.unique h2]

theorem Opt.unique {tag : UInt8} {v : Option Bytes} {x y : Bytes} (hx : Opt tag v x) (hy : Opt tag v y) : x = y := by
  cases v with
  | none => exact Eq.trans hx (Eq.symm hy)
  | some v => exact Len.unique hx hy

theorem Seq.unique {α : Type} {P : α → Bytes → Prop} (hP : ∀ a x y, P a x → P a y → x = y) {as : List α} {x y : Bytes}
    (hx : Seq P as x) (hy : Seq P as y) : x = y := by
  induction hx generalizing y with
  | nil => cases hy; rfl
  | cons h1 _ ih =>
    cases hy with
    | cons h2 h3 => rw [hP _ _ _ h1 h2, ih h3]

theorem Packed.unique {tag : UInt8} {ns : List Nat} {x y : Bytes} (hx : Packed tag ns x) (hy : Packed tag ns y) : x = y := by
  rcases hx with ⟨h1, rfl⟩ | ⟨h1, p, h2, h3⟩
  · rcases hy with ⟨-, rfl⟩ | ⟨h4, -⟩
    · rfl
    · exact absurd h1 h4
  · rcases hy with ⟨h4, -⟩ | ⟨-, q, h5, h6⟩
    · exact absurd h4 h1
    · obtain rfl := Seq.unique (P := Shortest) (fun _ _ _ => Shortest.unique) h2 h5
      exact h3.unique h6

theorem CLevel.unique {ks : List Nat} {cs : List (Nat × Nat)} {x y : Bytes} (hx : CLevel ks cs x) (hy : CLevel ks cs y) : x = y := by
  obtain ⟨a, b, h1, h2, rfl⟩ := hx
  obtain ⟨a', b', h3, h4, rfl⟩ := hy
  rw [h1.unique h3, h2.unique h4]

theorem CIndex.unique {ns : List (List Nat × List (Nat × Nat))} {x y : Bytes} (hx : CIndex ns x) (hy : CIndex ns y) : x = y := by
  refine Seq.unique (fun n x y h1 h2 => ?_) hx hy
  obtain ⟨p, h1, h3⟩ := h1
  obtain ⟨q, h2, h4⟩ := h2
  obtain rfl := h1.unique h2
  exact h3.unique h4

theorem CBlock.unique {k : Bytes} {v : Option Bytes} {ns : List (List Nat × List (Nat × Nat))} {x y : Bytes}
    (hx : CBlock k v ns x) (hy : CBlock k v ns y) : x = y := by
  obtain ⟨i, a, b, c, h1, h2, h3, h4, rfl⟩ := hx
  obtain ⟨i', a', b', c', h5, h6, h7, h8, rfl⟩ := hy
  obtain rfl := h1.unique h5
  rw [h2.unique h6, h3.unique h7, h4.unique h8]

theorem CHeader.unique {p : Bytes} {m : Option (Option Bytes × Option Bytes)} {x y : Bytes}
    (hx : CHeader p m x) (hy : CHeader p m y) : x = y := by
  obtain ⟨a, b, h1, rfl, h2⟩ := hx
  obtain ⟨a', b', h3, rfl, h4⟩ := hy
  rw [h1.unique h3]
  congr 1
  match m with
  | none => exact h2.trans h4.symm
  | some (f, d) =>
    obtain ⟨x, y, h5, h6, h7⟩ := h2
    obtain ⟨x', y', h8, h9, h10⟩ := h4
    obtain rfl := h5.unique h8
    obtain rfl := h6.unique h9
    exact h7.unique h10

theorem len_encode {tag : Nat} {t : UInt8} (ht : encodeKeyLen tag = [t]) (b : Bytes) : Len t b (encodeLenField tag b) :=
  ⟨_, shortest_encode _, by rw [encodeLenField, ht]; simp⟩

theorem opt_encode {tag : Nat} {t : UInt8} (ht : encodeKeyLen tag = [t]) (v : Option Bytes) : Opt t v (encodeOptLen tag v) := by
  cases v with
  | none => rfl
  | some v => exact len_encode ht v

theorem seq_flatMap {α : Type} {P : α → Bytes → Prop} {f : α → Bytes} (h : ∀ a, P a (f a)) (as : List α) :
    Seq P as (as.flatMap f) := by
  induction as with
  | nil => exact .nil
  | cons a as ih => exact .cons (h a) ih

theorem packed_encode {tag : Nat} {t : UInt8} (ht : encodeKeyLen tag = [t]) (ns : List Nat) : Packed t ns (encodePacked tag ns) := by
  unfold encodePacked
  cases ns with
  | nil => exact .inl ⟨rfl, rfl⟩
  | cons n ns => exact .inr ⟨by simp, _, seq_flatMap shortest_encode _, len_encode ht _⟩

/-- A node as plain data. -/
def shape (n : Node) : List Nat × List (Nat × Nat) := (n.keys, n.children.map fun c => (c.seq, c.offset))

theorem toLevel_eq (n : Node) : toLevel n = levelOf (shape n) := by
  simp [toLevel, levelOf, shape, List.flatMap_map]

theorem level_encode (n : Node) : CLevel (shape n).1 (shape n).2 (encodeLevel (toLevel n)) := by
  refine ⟨_, _, packed_encode (tag := 1) (by decide) _, packed_encode (tag := 2) (by decide) _, ?_⟩
  rw [toLevel_eq]
  rfl

theorem index_encode (ns : List Node) : CIndex (ns.map shape) (encodeYolo (ns.map toLevel)) := by
  induction ns with
  | nil => exact .nil
  | cons n ns ih => exact .cons ⟨_, level_encode n, len_encode (tag := 1) (by decide) _⟩ ih

theorem block_encode (k : Bytes) (v : Option Bytes) (ns : List Node) : CBlock k v (ns.map shape) (encodeBlock k v ns) :=
  ⟨_, _, _, _, index_encode ns, len_encode (tag := 1) (by decide) _, len_encode (tag := 2) (by decide) _,
    opt_encode (tag := 3) (by decide) _, rfl⟩

theorem header_encode (p : Bytes) (m : Option Metadata) :
    CHeader p (m.map fun m => (m.contentFeed, m.userData)) (encodeHeader ⟨p, m⟩) := by
  refine ⟨_, _, len_encode (tag := 1) (by decide) _, rfl, ?_⟩
  cases m with
  | none => rfl
  | some m => exact ⟨_, _, opt_encode (tag := 1) (by decide) _, opt_encode (tag := 2) (by decide) _,
      len_encode (tag := 2) (by decide) _⟩

/-! ## What is read -/

/-- The payload of a field. -/
inductive PayloadBytes : Nat → Field → Bytes → Prop
  | varint {n x} : Varint64 n x → PayloadBytes 0 (.varint n) x
  | fixed64 {b} : b.length = 8 → PayloadBytes 1 (.fixed64 b) b
  | len {b l} : Varint64 b.length l → PayloadBytes 2 (.len b) (l ++ b)
  | fixed32 {b} : b.length = 4 → PayloadBytes 5 (.fixed32 b) b

theorem takeBytes_iff {n : Nat} {bs b r : Bytes} : takeBytes n bs = some (b, r) ↔ b.length = n ∧ bs = b ++ r := by
  unfold takeBytes
  constructor
  · intro h
    split at h
    · rename_i hn
      cases h
      exact ⟨by simp; omega, (List.take_append_drop n bs).symm⟩
    · cases h
  · rintro ⟨rfl, rfl⟩
    simp

theorem decodePayload64_iff {w : Nat} {bs r : Bytes} {f : Field} :
    decodePayload64 w bs = some (f, r) ↔ ∃ x, PayloadBytes w f x ∧ bs = x ++ r := by
  constructor
  · intro h
    unfold decodePayload64 at h
    split at h
    · obtain ⟨⟨n, r'⟩, h1, h2⟩ := Option.map_eq_some_iff.mp h
      cases h2
      obtain ⟨x, h3, rfl⟩ := decodeVarint64_iff.mp h1
      exact ⟨x, .varint h3, rfl⟩
    · obtain ⟨⟨b, r'⟩, h1, h2⟩ := Option.map_eq_some_iff.mp h
      cases h2
      obtain ⟨h3, rfl⟩ := takeBytes_iff.mp h1
      exact ⟨b, .fixed64 h3, rfl⟩
    · split at h
      · cases h
      · rename_i n r1 hv
        obtain ⟨⟨b, r'⟩, h1, h2⟩ := Option.map_eq_some_iff.mp h
        cases h2
        obtain ⟨rfl, rfl⟩ := takeBytes_iff.mp h1
        obtain ⟨x, h3, rfl⟩ := decodeVarint64_iff.mp hv
        exact ⟨x ++ b, .len h3, by simp⟩
    · obtain ⟨⟨b, r'⟩, h1, h2⟩ := Option.map_eq_some_iff.mp h
      cases h2
      obtain ⟨h3, rfl⟩ := takeBytes_iff.mp h1
      exact ⟨b, .fixed32 h3, rfl⟩
    · cases h
  · rintro ⟨x, h, rfl⟩
    cases h with
    | varint h => simp only [decodePayload64, decodeVarint64_iff.mpr ⟨_, h, rfl⟩, Option.map_some]
    | fixed64 h => simp only [decodePayload64, takeBytes_iff.mpr ⟨h, rfl⟩, Option.map_some]
    | len h =>
      simp only [decodePayload64, List.append_assoc, decodeVarint64_iff.mpr ⟨_, h, rfl⟩, takeBytes_iff.mpr ⟨rfl, rfl⟩,
        Option.map_some]
    | fixed32 h => simp only [decodePayload64, takeBytes_iff.mpr ⟨h, rfl⟩, Option.map_some]

theorem scalar_iff {f : Nat × Field} {bs : Bytes} :
    Scalar f bs ↔ ∃ w key x, Varint64 (8 * f.1 + w) key ∧ w < 8 ∧ PayloadBytes w f.2 x ∧ bs = key ++ x := by
  constructor
  · intro h
    cases h with
    | varint h1 h2 => exact ⟨0, _, _, h1, by omega, .varint h2, rfl⟩
    | fixed64 h1 h2 => exact ⟨1, _, _, h1, by omega, .fixed64 h2, rfl⟩
    | len h1 h2 => exact ⟨2, _, _, h1, by omega, .len h2, rfl⟩
    | fixed32 h1 h2 => exact ⟨5, _, _, h1, by omega, .fixed32 h2, rfl⟩
  · rintro ⟨w, key, x, h1, -, h2, rfl⟩
    obtain ⟨t, f⟩ := f
    dsimp only at h2
    cases h2 with
    | varint h => exact .varint h1 h
    | fixed64 h => exact .fixed64 h1 h
    | len h => exact .len h1 h
    | fixed32 h => exact .fixed32 h1 h

theorem PayloadBytes.wire {w : Nat} {f : Field} {x : Bytes} (h : PayloadBytes w f x) : w < 8 ∧ w ≠ 3 ∧ w ≠ 4 := by
  cases h <;> decide

theorem inside_of_skip {lim : Nat} : ∀ (fuel : Nat) (st : List Nat) (bs : Bytes) {r : Bytes},
    skipGroup64F lim fuel st bs = some r → ∃ x, Inside lim st x ∧ bs = x ++ r := by
  intro fuel
  induction fuel with
  | zero =>
    intro st bs r h
    cases st with
    | nil => cases h; exact ⟨[], .done, rfl⟩
    | cons t st => cases h
  | succ fuel ih =>
    intro st bs r h
    cases st with
    | nil => cases h; exact ⟨[], .done, rfl⟩
    | cons t st =>
      unfold skipGroup64F at h
      split at h
      · cases h
      · rename_i key r1 hv
        obtain ⟨x, h1, rfl⟩ := decodeVarint64_iff.mp hv
        have hk := Nat.div_add_mod key 8
        split at h
        · cases h
        · split at h
          · cases h
          · rename_i hk32 hk0
            have ht : IsTag (key / 8) := ⟨by omega, by omega⟩
            split at h
            · rename_i h4
              rw [h4] at hk
              split at h
              · rename_i hkt
                subst hkt
                obtain ⟨y, h2, rfl⟩ := ih _ _ h
                exact ⟨x ++ y, .close (by rw [hk]; exact h1) h2, by simp⟩
              · cases h
            · split at h
              · cases h
              · rename_i hlim
                split at h
                · rename_i h3
                  rw [h3] at hk
                  obtain ⟨y, h2, rfl⟩ := ih _ _ h
                  exact ⟨x ++ y, .nested (by simp) (by simp only [List.length_cons]; omega) ht (by rw [hk]; exact h1) h2, by simp⟩
                · split at h
                  · cases h
                  · rename_i f r2 hp
                    obtain ⟨z, h3, rfl⟩ := decodePayload64_iff.mp hp
                    obtain ⟨y, h2, rfl⟩ := ih _ _ h
                    refine ⟨(x ++ z) ++ y, .field (f := (key / 8, f)) (by simp) (by simp only [List.length_cons]; omega) ht
                      (scalar_iff.mpr ⟨key % 8, x, z, ?_, h3.wire.1, h3, rfl⟩) h2, by simp⟩
                    dsimp only
                    rw [hk]
                    exact h1

theorem Scalar.ne_nil {f : Nat × Field} {a : Bytes} (h : Scalar f a) : a ≠ [] := by
  obtain ⟨w, key, x, h1, -, -, rfl⟩ := scalar_iff.mp h
  have := h1.ne_nil
  simp [this]

theorem skip_of_inside {lim : Nat} {st : List Nat} {x : Bytes} (h : Inside lim st x) : (∀ t ∈ st, IsTag t) →
    ∀ (fuel : Nat) (r : Bytes), x.length ≤ fuel → skipGroup64F lim fuel st (x ++ r) = some r := by
  have pos : ∀ {n : Nat} {key : Bytes}, Varint64 n key → 0 < key.length := fun h => List.length_pos_iff.mpr h.ne_nil
  induction h with
  | done => intro _ fuel r _; cases fuel <;> rfl
  | @close tag st key b hk h ih =>
    intro hst fuel r hl
    have hp := pos hk
    rw [List.length_append] at hl
    obtain ⟨h1, h2⟩ := hst tag (by simp)
    cases fuel with
    | zero => omega
    | succ fuel =>
      unfold skipGroup64F
      rw [List.append_assoc, decodeVarint64_iff.mpr ⟨_, hk, rfl⟩]
      dsimp only
      rw [if_neg (by omega), if_neg (by omega), if_pos (by omega), if_pos (by omega)]
      exact ih (fun t ht => hst t (List.mem_cons_of_mem _ ht)) fuel r (by omega)
  | @nested tag st key b hne hlim ht hk h ih =>
    intro hst fuel r hl
    have hp := pos hk
    rw [List.length_append] at hl
    obtain ⟨h1, h2⟩ := ht
    cases st with
    | nil => exact absurd rfl hne
    | cons t st =>
      cases fuel with
      | zero => omega
      | succ fuel =>
        simp only [List.length_cons] at hlim
        unfold skipGroup64F
        rw [List.append_assoc, decodeVarint64_iff.mpr ⟨_, hk, rfl⟩]
        dsimp only
        rw [if_neg (by omega), if_neg (by omega), if_neg (by omega), if_neg (by omega), if_pos (by omega),
          show (8 * tag + 3) / 8 = tag by omega]
        refine ih (fun t' ht' => ?_) fuel r (by omega)
        rcases List.mem_cons.mp ht' with rfl | ht'
        · exact ⟨h1, h2⟩
        · exact hst t' ht'
  | @field f st a b hne hlim ht hs h ih =>
    intro hst fuel r hl
    obtain ⟨w, key, x, h3, h4, h5, rfl⟩ := scalar_iff.mp hs
    have hp := pos h3
    rw [List.length_append, List.length_append] at hl
    obtain ⟨h1, h2⟩ := ht
    obtain ⟨tag, f⟩ := f
    dsimp only at h1 h2 h3 h5
    have hw := h5.wire
    cases st with
    | nil => exact absurd rfl hne
    | cons t st =>
      cases fuel with
      | zero => omega
      | succ fuel =>
        simp only [List.length_cons] at hlim
        unfold skipGroup64F
        rw [List.append_assoc, List.append_assoc, decodeVarint64_iff.mpr ⟨_, h3, rfl⟩]
        dsimp only
        rw [if_neg (by omega), if_neg (by omega), if_neg (by omega), if_neg (by omega), if_neg (by omega),
          show (8 * tag + w) % 8 = w by omega, decodePayload64_iff.mpr ⟨x, h5, rfl⟩]
        exact ih hst fuel r (by omega)

/-- The payload of a field that may be a group. -/
def FieldPayload (lim tag w : Nat) (f : Field) (x : Bytes) : Prop :=
  PayloadBytes w f x ∨ (w = 3 ∧ f = .group ∧ Inside lim [tag] x)

theorem decodeField64_iff {lim t w : Nat} {bs r : Bytes} {f : Field} (ht : IsTag t) :
    decodeField64 lim t w bs = some (f, r) ↔ ∃ x, FieldPayload lim t w f x ∧ bs = x ++ r := by
  unfold decodeField64
  constructor
  · intro h
    split at h
    · rename_i hw
      obtain ⟨r', h1, h2⟩ := Option.map_eq_some_iff.mp h
      cases h2
      obtain ⟨x, h3, rfl⟩ := inside_of_skip _ _ _ h1
      exact ⟨x, .inr ⟨hw, rfl, h3⟩, rfl⟩
    · obtain ⟨x, h1, h2⟩ := decodePayload64_iff.mp h
      exact ⟨x, .inl h1, h2⟩
  · rintro ⟨x, h | ⟨rfl, rfl, h⟩, rfl⟩
    · rw [if_neg h.wire.2.1]
      exact decodePayload64_iff.mpr ⟨x, h, rfl⟩
    · rw [if_pos rfl, skip_of_inside h (fun t' h' => by rw [List.mem_singleton.mp h']; exact ht) _ r (by simp)]
      rfl

theorem fieldBytes_iff {lim : Nat} {f : Nat × Field} {bs : Bytes} :
    FieldBytes lim f bs ↔ ∃ w key x, Varint64 (8 * f.1 + w) key ∧ w < 8 ∧ FieldPayload lim f.1 w f.2 x ∧ bs = key ++ x := by
  constructor
  · intro h
    cases h with
    | scalar h =>
      obtain ⟨w, key, x, h1, h2, h3, h4⟩ := scalar_iff.mp h
      exact ⟨w, key, x, h1, h2, .inl h3, h4⟩
    | group h1 h2 => exact ⟨3, _, _, h1, by omega, .inr ⟨rfl, rfl, h2⟩, rfl⟩
  · rintro ⟨w, key, x, h1, h2, h3 | ⟨rfl, h3, h4⟩, rfl⟩
    · exact .scalar (scalar_iff.mpr ⟨w, key, x, h1, h2, h3, rfl⟩)
    · obtain ⟨t, f⟩ := f
      dsimp only at h3
      subst h3
      exact .group h1 h4

theorem message_cons {lim : Nat} {f : Nat × Field} {fs : List (Nat × Field)} {bs : Bytes} :
    Message lim (f :: fs) bs ↔ ∃ a b, FieldBytes lim f a ∧ 1 ≤ f.1 ∧ f.1 < 2 ^ 29 ∧ Message lim fs b ∧ bs = a ++ b := by
  constructor
  · rintro ⟨h1, h2⟩
    cases h1 with
    | cons h3 h4 =>
      exact ⟨_, _, h3, (h2 f (by simp)).1, (h2 f (by simp)).2, ⟨h4, fun g hg => h2 g (List.mem_cons_of_mem _ hg)⟩, rfl⟩
  · rintro ⟨a, b, h1, h2, h3, ⟨h4, h5⟩, rfl⟩
    refine ⟨.cons h1 h4, fun g hg => ?_⟩
    rcases List.mem_cons.mp hg with rfl | hg
    · exact ⟨h2, h3⟩
    · exact h5 g hg

theorem message_of_decode {lim : Nat} : ∀ (fuel : Nat) (bs : Bytes) {fs : List (Nat × Field)}, decodeFields64F lim fuel bs = some fs →
    Message lim fs bs := by
  intro fuel
  induction fuel with
  | zero =>
    intro bs fs h
    cases bs with
    | nil => cases h; exact ⟨.nil, by simp⟩
    | cons b bs => cases h
  | succ fuel ih =>
    intro bs fs h
    cases bs with
    | nil => cases h; exact ⟨.nil, by simp⟩
    | cons b bs =>
      unfold decodeFields64F at h
      split at h
      · cases h
      · rename_i key r hv
        obtain ⟨x, h1, h2⟩ := decodeVarint64_iff.mp hv
        rw [h2]
        split at h
        · cases h
        · split at h
          · cases h
          · split at h
            · cases h
            · rename_i hk hk0 f r' hp
              obtain ⟨y, h3, rfl⟩ := (decodeField64_iff ⟨by omega, by omega⟩).mp hp
              split at h
              · cases h
              · rename_i fs' hf
                cases h
                refine message_cons.mpr ⟨x ++ y, r', fieldBytes_iff.mpr ⟨key % 8, x, y, ?_, by omega, h3, rfl⟩, ?_, ?_,
                  ih r' hf, by simp⟩
                · rw [show 8 * (key / 8, f).1 + key % 8 = key from Nat.div_add_mod key 8]; exact h1
                · dsimp only; omega
                · dsimp only; omega

theorem decode_of_message {lim : Nat} : ∀ (fuel : Nat) {fs : List (Nat × Field)} (bs : Bytes), Message lim fs bs → bs.length ≤ fuel →
    decodeFields64F lim fuel bs = some fs := by
  intro fuel
  induction fuel with
  | zero =>
    intro fs bs h hl
    obtain rfl : bs = [] := List.length_eq_zero_iff.mp (by omega)
    cases fs with
    | nil => rfl
    | cons f fs =>
      obtain ⟨a, b, h1, -, -, -, h2⟩ := message_cons.mp h
      obtain ⟨w, key, x, h3, -, -, rfl⟩ := fieldBytes_iff.mp h1
      have := h3.ne_nil
      simp at h2
      exact absurd h2.1 this
  | succ fuel ih =>
    intro fs bs h hl
    cases fs with
    | nil =>
      obtain ⟨h1, -⟩ := h
      cases h1
      rfl
    | cons f fs =>
      obtain ⟨a, r, h1, h2, h3, h4, rfl⟩ := message_cons.mp h
      obtain ⟨w, key, x, h5, h6, h7, rfl⟩ := fieldBytes_iff.mp h1
      obtain ⟨d, key, rfl⟩ := List.exists_cons_of_ne_nil h5.ne_nil
      obtain ⟨t, f⟩ := f
      dsimp only at h2 h3 h5 h7
      have hd : decodeVarint64 (d :: (key ++ (x ++ r))) = some (8 * t + w, x ++ r) :=
        decodeVarint64_iff.mpr ⟨_, h5, rfl⟩
      simp only [List.cons_append, List.append_assoc, List.length_cons, List.length_append] at hl ⊢
      unfold decodeFields64F
      rw [hd]
      dsimp only
      rw [if_neg (by omega), if_neg (by omega), show (8 * t + w) % 8 = w by omega, show (8 * t + w) / 8 = t by omega,
        (decodeField64_iff ⟨h2, h3⟩).mpr ⟨x, h7, rfl⟩]
      dsimp only
      rw [ih r h4 (by omega)]

theorem decodeFields64_iff {lim : Nat} {bs : Bytes} {fs : List (Nat × Field)} : decodeFields64 lim bs = some fs ↔ Message lim fs bs :=
  ⟨message_of_decode _ _, fun h => decode_of_message _ _ h (Nat.le_refl _)⟩

theorem varints_of_decode : ∀ (fuel : Nat) (bs : Bytes) {ns : List Nat}, decodeVarints64F fuel bs = some ns →
    Seq Varint64 ns bs := by
  intro fuel
  induction fuel with
  | zero =>
    intro bs fs h
    cases bs with
    | nil => cases h; exact .nil
    | cons b bs => cases h
  | succ fuel ih =>
    intro bs fs h
    cases bs with
    | nil => cases h; exact .nil
    | cons b bs =>
      unfold decodeVarints64F at h
      split at h
      · cases h
      · rename_i n r hv
        obtain ⟨x, h1, h2⟩ := decodeVarint64_iff.mp hv
        rw [h2]
        split at h
        · cases h
        · rename_i ns hn
          cases h
          exact .cons h1 (ih r hn)

theorem decode_of_varints : ∀ (fuel : Nat) {ns : List Nat} (bs : Bytes), Seq Varint64 ns bs → bs.length ≤ fuel →
    decodeVarints64F fuel bs = some ns := by
  intro fuel
  induction fuel with
  | zero =>
    intro ns bs h hl
    obtain rfl : bs = [] := List.length_eq_zero_iff.mp (by omega)
    generalize hb : ([] : Bytes) = bs at h
    cases h with
    | nil => rfl
    | cons h1 h2 =>
      have := h1.ne_nil
      exact absurd (List.append_eq_nil_iff.mp hb.symm).1 this
  | succ fuel ih =>
    intro ns bs h hl
    cases h with
    | nil => rfl
    | cons h1 h2 =>
      rename_i n ns a r
      obtain ⟨d, a, rfl⟩ := List.exists_cons_of_ne_nil h1.ne_nil
      have hd : decodeVarint64 (d :: (a ++ r)) = some (n, r) := decodeVarint64_iff.mpr ⟨_, h1, rfl⟩
      simp only [List.cons_append, List.length_cons, List.length_append] at hl ⊢
      unfold decodeVarints64F
      rw [hd]
      dsimp only
      rw [ih r h2 (by omega)]

theorem decodeVarints64_iff {bs : Bytes} {ns : List Nat} : decodeVarints64 bs = some ns ↔ Seq Varint64 ns bs :=
  ⟨varints_of_decode _ _, fun h => decode_of_varints _ _ h (Nat.le_refl _)⟩

theorem mergeRepeated64_iff {old ns : List Nat} {f : Field} :
    mergeRepeated64 old f = some ns ↔ ∃ ms, Numbers f ms ∧ ns = old ++ ms := by
  constructor
  · intro h
    unfold mergeRepeated64 at h
    split at h
    · obtain ⟨ms, h1, rfl⟩ := Option.map_eq_some_iff.mp h
      exact ⟨ms, .packed (decodeVarints64_iff.mp h1), rfl⟩
    · cases h; exact ⟨_, .one, rfl⟩
    · cases h
  · rintro ⟨ms, h, rfl⟩
    cases h with
    | one => rfl
    | packed h => simp only [mergeRepeated64, decodeVarints64_iff.mpr h, Option.map_some]

theorem mergeLevel64_iff {fs : List (Nat × Field)} {l m : Level} :
    mergeLevel64 fs l = some m ↔
      ∃ ks cs, Repeated 1 fs ks ∧ Repeated 2 fs cs ∧ m = ⟨l.keys ++ ks, l.children ++ cs⟩ := by
  induction fs generalizing l with
  | nil =>
    constructor
    · intro h; cases h; exact ⟨[], [], .nil, .nil, by simp⟩
    · rintro ⟨ks, cs, h1, h2, rfl⟩
      cases h1; cases h2
      simp [mergeLevel64]
  | cons f fs ih =>
    obtain ⟨t, f⟩ := f
    constructor
    · intro h
      unfold mergeLevel64 at h
      split at h
      · rename_i ht
        subst ht
        split at h
        · cases h
        · rename_i ks hk
          obtain ⟨ms, h1, rfl⟩ := mergeRepeated64_iff.mp hk
          obtain ⟨ks, cs, h2, h3, rfl⟩ := ih.mp h
          exact ⟨ms ++ ks, cs, .take h1 h2, .skip (by simp) h3, by simp⟩
      · rename_i ht
        split at h
        · rename_i ht2
          subst ht2
          split at h
          · cases h
          · rename_i ks hk
            obtain ⟨ms, h1, rfl⟩ := mergeRepeated64_iff.mp hk
            obtain ⟨ks, cs, h2, h3, rfl⟩ := ih.mp h
            exact ⟨ks, ms ++ cs, .skip (by simp) h2, .take h1 h3, by simp⟩
        · rename_i ht2
          obtain ⟨ks, cs, h2, h3, rfl⟩ := ih.mp h
          exact ⟨ks, cs, .skip ht h2, .skip ht2 h3, rfl⟩
    · rintro ⟨ks, cs, h1, h2, rfl⟩
      unfold mergeLevel64
      cases h1 with
      | skip ht h1 =>
        dsimp only at ht
        rw [if_neg ht]
        cases h2 with
        | skip ht2 h2 =>
          dsimp only at ht2
          rw [if_neg ht2]
          exact ih.mpr ⟨ks, cs, h1, h2, rfl⟩
        | take h3 h2 =>
          rename_i ms ns
          rw [if_pos rfl, mergeRepeated64_iff.mpr ⟨_, h3, rfl⟩]
          exact ih.mpr ⟨ks, ns, h1, h2, by simp⟩
      | take h3 h1 =>
        rename_i ms ns
        rw [if_pos rfl, mergeRepeated64_iff.mpr ⟨_, h3, rfl⟩]
        cases h2 with
        | skip ht2 h2 => exact ih.mpr ⟨ns, cs, h1, h2, by simp⟩

theorem decodeLevel64_iff {bs : Bytes} {l : Level} : decodeLevel64 bs = some l ↔ ∃ fs, Message 99 fs bs ∧ LevelMeans fs l := by
  unfold decodeLevel64
  constructor
  · intro h
    split at h
    · cases h
    · rename_i fs hf
      obtain ⟨ks, cs, h1, h2, rfl⟩ := mergeLevel64_iff.mp h
      exact ⟨fs, decodeFields64_iff.mp hf, h1, h2⟩
  · rintro ⟨fs, h1, h2, h3⟩
    rw [decodeFields64_iff.mpr h1]
    exact mergeLevel64_iff.mpr ⟨_, _, h2, h3, rfl⟩

theorem mergeYolo64_iff {fs : List (Nat × Field)} {ls ms : List Level} :
    mergeYolo64 fs ls = some ms ↔ ∃ ls', YoloMeans fs ls' ∧ ms = ls ++ ls' := by
  induction fs generalizing ls with
  | nil =>
    constructor
    · intro h; cases h; exact ⟨[], .nil, by simp⟩
    · rintro ⟨ls', h, rfl⟩; cases h; simp [mergeYolo64]
  | cons f fs ih =>
    obtain ⟨t, f⟩ := f
    constructor
    · intro h
      unfold mergeYolo64 at h
      split at h
      · rename_i ht
        subst ht
        split at h
        · split at h
          · cases h
          · rename_i l hl
            obtain ⟨gs, h1, h2⟩ := decodeLevel64_iff.mp hl
            obtain ⟨ls', h3, rfl⟩ := ih.mp h
            exact ⟨l :: ls', .take h1 h2 h3, by simp⟩
        · cases h
      · rename_i ht
        obtain ⟨ls', h3, rfl⟩ := ih.mp h
        exact ⟨ls', .skip ht h3, rfl⟩
    · rintro ⟨ls', h, rfl⟩
      unfold mergeYolo64
      cases h with
      | skip ht h =>
        dsimp only at ht
        rw [if_neg ht]
        exact ih.mpr ⟨_, h, rfl⟩
      | take h1 h2 h =>
        rw [if_pos rfl]
        dsimp only
        rw [decodeLevel64_iff.mpr ⟨_, h1, h2⟩]
        exact ih.mpr ⟨_, h, by simp⟩

theorem decodeYolo64_iff {bs : Bytes} {ls : List Level} : decodeYolo64 bs = some ls ↔ ∃ fs, Message 100 fs bs ∧ YoloMeans fs ls := by
  unfold decodeYolo64
  constructor
  · intro h
    split at h
    · cases h
    · rename_i fs hf
      obtain ⟨ls', h1, rfl⟩ := mergeYolo64_iff.mp h
      exact ⟨fs, decodeFields64_iff.mp hf, h1⟩
  · rintro ⟨fs, h1, h2⟩
    rw [decodeFields64_iff.mpr h1]
    exact mergeYolo64_iff.mpr ⟨_, h2, rfl⟩

theorem lastOf_cons (tag : Nat) (f : Nat × Field) (fs : List (Nat × Field)) :
    lastOf tag (f :: fs) = (lastOf tag fs).or (if f.1 = tag then some f.2 else none) := by
  unfold lastOf
  by_cases h : f.1 = tag
  · rw [List.filter_cons_of_pos (by simpa using h), List.getLast?_cons, if_pos h]
    cases (fs.filter (·.1 = tag)).getLast? <;> rfl
  · rw [List.filter_cons_of_neg (by simpa using h), if_neg h, Option.or_none]

theorem says_cons_ne {tag t : Nat} {f : Field} {fs : List (Nat × Field)} {v : Option Bytes} (h : t ≠ tag) :
    Says tag ((t, f) :: fs) v ↔ Says tag fs v := by
  unfold Says AllBytes
  rw [lastOf_cons, if_neg h, Option.or_none]
  constructor
  · rintro ⟨h1, h2⟩
    exact ⟨fun g hg => h1 g (List.mem_cons_of_mem _ hg), h2⟩
  · rintro ⟨h1, h2⟩
    refine ⟨fun g hg hgt => ?_, h2⟩
    rcases List.mem_cons.mp hg with rfl | hg
    · exact absurd hgt h
    · exact h1 g hg hgt

theorem says_cons_eq {tag : Nat} {f : Field} {fs : List (Nat × Field)} {v : Option Bytes} :
    Says tag ((tag, f) :: fs) v ↔ ∃ b w, f = .len b ∧ Says tag fs w ∧ v = w.or (some b) := by
  unfold Says AllBytes
  rw [lastOf_cons, if_pos rfl]
  constructor
  · rintro ⟨h1, h2⟩
    obtain ⟨b, hb⟩ := h1 (tag, f) (by simp) rfl
    dsimp only at hb
    subst hb
    have h1' := fun g (hg : g ∈ fs) => h1 g (List.mem_cons_of_mem _ hg)
    have hw : ∃ w : Option Bytes, lastOf tag fs = w.map .len := by
      cases hl : lastOf tag fs with
      | none => exact ⟨none, rfl⟩
      | some g =>
        unfold lastOf at hl
        obtain ⟨g', h3, rfl⟩ := Option.map_eq_some_iff.mp hl
        have h4 := List.mem_of_getLast? h3
        obtain ⟨h5, h6⟩ := List.mem_filter.mp h4
        obtain ⟨b', hb'⟩ := h1' g' h5 (by simpa using h6)
        exact ⟨some b', by rw [hb']; rfl⟩
    obtain ⟨w, hw⟩ := hw
    refine ⟨b, w, rfl, ⟨h1', hw⟩, ?_⟩
    rw [hw] at h2
    cases w <;> cases v <;> simp_all
  · rintro ⟨b, w, rfl, ⟨h1, h2⟩, rfl⟩
    refine ⟨fun g hg hgt => ?_, ?_⟩
    · rcases List.mem_cons.mp hg with rfl | hg
      · exact ⟨b, rfl⟩
      · exact h1 g hg hgt
    · rw [h2]
      cases w <;> rfl

theorem mergeNode_iff {fs : List (Nat × Field)} {m m' : NodeSchema} :
    mergeNode fs m = some m' ↔ ∃ i k v, Says 1 fs i ∧ Says 2 fs k ∧ Says 3 fs v ∧
      m' = ⟨i.getD m.index, k.getD m.key, v.or m.value⟩ := by
  induction fs generalizing m with
  | nil =>
    have hs : ∀ t v, Says t [] v ↔ v = none := by
      intro t v
      unfold Says AllBytes lastOf
      cases v <;> simp
    constructor
    · intro h
      cases h
      exact ⟨none, none, none, (hs _ _).mpr rfl, (hs _ _).mpr rfl, (hs _ _).mpr rfl, rfl⟩
    · rintro ⟨i, k, v, h1, h2, h3, rfl⟩
      rw [hs] at h1 h2 h3
      subst h1 h2 h3
      rfl
  | cons f fs ih =>
    obtain ⟨t, f⟩ := f
    unfold mergeNode
    by_cases h1 : t = 1
    · subst h1
      rw [if_pos rfl]
      constructor
      · intro h
        split at h
        · obtain ⟨i, k, v, h1, h2, h3, rfl⟩ := ih.mp h
          refine ⟨_, k, v, says_cons_eq.mpr ⟨_, i, rfl, h1, rfl⟩, (says_cons_ne (by simp)).mpr h2, (says_cons_ne (by simp)).mpr h3, ?_⟩
          cases i <;> rfl
        · cases h
      · rintro ⟨i, k, v, h1, h2, h3, rfl⟩
        obtain ⟨b, w, rfl, h4, rfl⟩ := says_cons_eq.mp h1
        refine ih.mpr ⟨w, k, v, h4, (says_cons_ne (by simp)).mp h2, (says_cons_ne (by simp)).mp h3, ?_⟩
        cases w <;> rfl
    · rw [if_neg h1]
      by_cases h2 : t = 2
      · subst h2
        rw [if_pos rfl]
        constructor
        · intro h
          split at h
          · obtain ⟨i, k, v, h1, h2, h3, rfl⟩ := ih.mp h
            refine ⟨i, _, v, (says_cons_ne (by simp)).mpr h1, says_cons_eq.mpr ⟨_, k, rfl, h2, rfl⟩, (says_cons_ne (by simp)).mpr h3, ?_⟩
            cases k <;> rfl
          · cases h
        · rintro ⟨i, k, v, h1, h2, h3, rfl⟩
          obtain ⟨b, w, rfl, h4, rfl⟩ := says_cons_eq.mp h2
          refine ih.mpr ⟨i, w, v, (says_cons_ne (by simp)).mp h1, h4, (says_cons_ne (by simp)).mp h3, ?_⟩
          cases w <;> rfl
      · rw [if_neg h2]
        by_cases h3 : t = 3
        · subst h3
          rw [if_pos rfl]
          constructor
          · intro h
            split at h
            · obtain ⟨i, k, v, h1, h2, h3, rfl⟩ := ih.mp h
              refine ⟨i, k, _, (says_cons_ne (by simp)).mpr h1, (says_cons_ne (by simp)).mpr h2, says_cons_eq.mpr ⟨_, v, rfl, h3, rfl⟩, ?_⟩
              cases v <;> rfl
            · cases h
          · rintro ⟨i, k, v, h1, h2, h3, rfl⟩
            obtain ⟨b, w, rfl, h4, rfl⟩ := says_cons_eq.mp h3
            refine ih.mpr ⟨i, k, w, (says_cons_ne (by simp)).mp h1, (says_cons_ne (by simp)).mp h2, h4, ?_⟩
            cases w <;> rfl
        · rw [if_neg h3, ih]
          simp only [says_cons_ne h1, says_cons_ne h2, says_cons_ne h3]

theorem decodeNode64_iff {bs : Bytes} {m : NodeSchema} : decodeNode64 bs = some m ↔ ∃ fs, Message 100 fs bs ∧ NodeMeans fs m := by
  unfold decodeNode64
  constructor
  · intro h
    split at h
    · cases h
    · rename_i fs hf
      obtain ⟨i, k, v, h1, h2, h3, rfl⟩ := mergeNode_iff.mp h
      exact ⟨fs, decodeFields64_iff.mp hf, i, k, h1, h2, by simpa using h3, rfl, rfl⟩
  · rintro ⟨fs, h1, i, k, h2, h3, h4, h5, h6⟩
    rw [decodeFields64_iff.mpr h1]
    exact mergeNode_iff.mpr ⟨i, k, m.value, h2, h3, h4, by cases m; simp_all⟩

theorem pairUp_iff {ns : List Nat} {cs : List Child} : pairUp ns = some cs ↔ ns = cs.flatMap fun c => [c.seq, c.offset] := by
  constructor
  · intro h
    induction ns using pairUp.induct generalizing cs with
    | case1 => cases h; rfl
    | case2 => cases h
    | case3 a b rest hn ih => simp [pairUp, hn] at h
    | case4 a b rest cs' hn ih =>
      simp only [pairUp, hn, Option.some.injEq] at h
      subst h
      simp [ih hn]
  · rintro rfl
    exact pairUp_flatMap cs

theorem levelToNode_iff {l : Level} {n : Node} : levelToNode l = some n ↔ l = levelOf (shape n) := by
  rw [← toLevel_eq]
  constructor
  · intro h
    unfold levelToNode at h
    split at h
    · cases h
    · rename_i cs hc
      cases h
      obtain ⟨ks, cc⟩ := l
      simp only [toLevel, Level.mk.injEq, true_and]
      exact pairUp_iff.mp hc
  · rintro rfl
    exact levelToNode_toLevel n

theorem levelsToNodes64_iff {ls : List Level} {ns : List Node} :
    levelsToNodes64 ls = some ns ↔ ls = (ns.map shape).map levelOf := by
  have h0 : (ns.map shape).map levelOf = ns.map toLevel := by
    rw [List.map_map]
    exact List.map_congr_left fun n _ => (toLevel_eq n).symm
  constructor
  · intro h
    clear h0
    induction ls generalizing ns with
    | nil => cases h; rfl
    | cons l ls ih =>
      simp only [levelsToNodes64] at h
      split at h
      · rename_i n ns' h1 h2
        cases h
        rw [ih h2, levelToNode_iff.mp h1]
        rfl
      · cases h
  · rw [h0]
    rintro rfl
    exact levelsToNodes64_map ns

theorem decodeBlock64_iff {bs k : Bytes} {v : Option Bytes} {ns : List Node} :
    decodeBlock64 bs = some (k, v, ns) ↔ Reads k v (ns.map shape) bs := by
  unfold decodeBlock64
  constructor
  · intro h
    split at h
    · cases h
    · rename_i m hm
      split at h
      · cases h
      · rename_i ls hl
        split at h
        · cases h
        · rename_i ns' hn
          cases h
          obtain ⟨fs, h1, h2⟩ := decodeNode64_iff.mp hm
          obtain ⟨gs, h3, h4⟩ := decodeYolo64_iff.mp hl
          rw [levelsToNodes64_iff.mp hn] at h4
          exact ⟨fs, m.index, gs, h1, h2, h3, h4⟩
  · rintro ⟨fs, i, gs, h1, h2, h3, h4⟩
    rw [decodeNode64_iff.mpr ⟨fs, h1, h2⟩]
    dsimp only
    rw [decodeYolo64_iff.mpr ⟨gs, h3, h4⟩]
    dsimp only
    rw [levelsToNodes64_iff.mpr rfl]

end Hyperbee.Wire
