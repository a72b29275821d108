import Verif.Spec
import Verif.Proof.PutTop
/-!
# What the index iterator of a node walks over
-/

namespace Hyperbee

/-! ## Bounds -/

theorem aboveMin_iff (l : LimitValue) (incl : Bool) (k : Bytes) :
    AboveMin l incl k ↔ l.cmp k = .lt ∨ (incl = true ∧ l.cmp k = .eq) := by
  cases l with
  | finite b =>
    simp only [AboveMin, LimitValue.cmp, bcmp_lt_iff, bcmp_eq_iff]
    constructor
    · rintro (h | ⟨h, e⟩)
      · exact .inl h
      · exact .inr ⟨h, e.symm⟩
    · rintro (h | ⟨h, e⟩)
      · exact .inl h
      · exact .inr ⟨h, e.symm⟩
  | infinite i => cases i <;> simp [AboveMin, LimitValue.cmp, InfiniteKeys.cmp]

theorem belowMax_iff (l : LimitValue) (incl : Bool) (k : Bytes) :
    BelowMax l incl k ↔ l.cmp k = .gt ∨ (incl = true ∧ l.cmp k = .eq) := by
  cases l with
  | finite b =>
    simp only [BelowMax, LimitValue.cmp, bcmp_gt_iff, bcmp_eq_iff]
    constructor
    · rintro (h | ⟨h, e⟩)
      · exact .inl h
      · exact .inr ⟨h, e.symm⟩
    · rintro (h | ⟨h, e⟩)
      · exact .inl h
      · exact .inr ⟨h, e.symm⟩
  | infinite i => cases i <;> simp [BelowMax, LimitValue.cmp, InfiniteKeys.cmp]

theorem aboveMin_up {l : LimitValue} {incl : Bool} {k k' : Bytes} (h : AboveMin l incl k) (hk : k < k') :
    AboveMin l incl k' := by
  rw [aboveMin_iff] at h ⊢
  rcases h with h | ⟨_, h⟩
  · exact .inl (LimitValue.cmp_lt_trans h hk)
  · exact .inl (LimitValue.cmp_eq_lt h hk)

theorem belowMax_down {l : LimitValue} {incl : Bool} {k k' : Bytes} (h : BelowMax l incl k) (hk : k' < k) :
    BelowMax l incl k' := by
  rw [belowMax_iff] at h ⊢
  rcases h with h | ⟨_, h⟩
  · exact .inl (LimitValue.cmp_gt_trans h hk)
  · exact .inl (LimitValue.cmp_eq_gt h hk)

/-- The code's bounds check agrees with the interval. -/
def TraverseConfig.Sound (conf : TraverseConfig) : Prop :=
  ∀ k, conf.inBounds k = true ↔ InRange conf k

/-! ## Pieces of a node -/

/-- The keys index `j` of the iterator stands for: a child's or one key. -/
def piece (ks : List Nat) (ts : List T) (j : Nat) : List Nat :=
  if j % 2 = 0 then (ts[j / 2]?.map T.flat).getD [] else ks[j / 2]?.toList

def pieceD (rev : Bool) (ks : List Nat) (ts : List T) (j : Nat) : List Nat :=
  if rev then (piece ks ts j).reverse else piece ks ts j

def flatIdx (rev : Bool) (ks : List Nat) (ts : List T) (is : List Nat) : List Nat :=
  is.flatMap (pieceD rev ks ts)

def dirFlat (rev : Bool) (l : List Nat) : List Nat := if rev then l.reverse else l

theorem piece_shift (k : Nat) (ks : List Nat) (t : T) (ts : List T) (j : Nat) :
    piece (k :: ks) (t :: ts) (j + 2) = piece ks ts j := by
  have h1 : (j + 2) % 2 = j % 2 := by omega
  have h2 : (j + 2) / 2 = j / 2 + 1 := by omega
  simp [piece, h1, h2]

theorem piece_shift_nil (k : Nat) (ks : List Nat) (j : Nat) :
    piece (k :: ks) [] (j + 2) = piece ks [] j := by
  have h1 : (j + 2) % 2 = j % 2 := by omega
  have h2 : (j + 2) / 2 = j / 2 + 1 := by omega
  simp [piece, h1, h2]

theorem range_two (n : Nat) : List.range (2 * (n + 1) + 1) = 0 :: 1 :: (List.range (2 * n + 1)).map (· + 2) := by
  rw [show 2 * (n + 1) + 1 = (2 * n + 1) + 1 + 1 by omega, List.range_succ_eq_map, List.range_succ_eq_map]
  simp [Function.comp_def]

theorem flat_pieces (ks : List Nat) : ∀ (ts : List T), (ts = [] ∨ ts.length = ks.length + 1) →
    (List.range (2 * ks.length + 1)).flatMap (piece ks ts) = flatL ks ts := by
  induction ks with
  | nil =>
    rintro ts (h | h)
    · subst h; simp [piece, flatL_nil]
    · obtain ⟨t, rfl⟩ : ∃ t, ts = [t] := List.length_eq_one_iff.mp (by simpa using h)
      simp [piece, flatL]
  | cons k ks ih =>
    rintro ts (h | h)
    · subst h
      rw [List.length_cons, range_two]
      simp only [List.flatMap_cons, List.flatMap_map, piece_shift_nil]
      rw [ih [] (.inl rfl)]
      simp [piece, flatL_nil]
    · cases ts with
      | nil => simp at h
      | cons t ts =>
        rw [List.length_cons, range_two]
        simp only [List.flatMap_cons, List.flatMap_map, piece_shift]
        rw [ih ts (.inr (by simpa using h))]
        simp [piece, flatL]

theorem rangeStepF_one (stop : Nat) : ∀ fuel start, stop - start ≤ fuel →
    rangeStepF stop 1 fuel start = List.range' start (stop - start) := by
  intro fuel
  induction fuel with
  | zero => intro start h; rw [show stop - start = 0 by omega]; rfl
  | succ fuel ih =>
    intro start h
    unfold rangeStepF
    split
    · rename_i hlt
      rw [ih (start + 1) (by omega), show stop - start = (stop - (start + 1)) + 1 by omega, List.range'_succ]
    · rename_i hlt
      rw [show stop - start = 0 by omega]; rfl

theorem rangeStep_one (start stop : Nat) : rangeStep start stop 1 = List.range' start (stop - start) :=
  rangeStepF_one stop _ _ (Nat.le_refl _)

theorem rangeStepF_mem {stop step : Nat} : ∀ {fuel start j : Nat}, j ∈ rangeStepF stop step fuel start →
    start ≤ j ∧ j < stop ∧ ∃ m, j = start + m * step := by
  intro fuel
  induction fuel with
  | zero => intro start j h; simp [rangeStepF] at h
  | succ fuel ih =>
    intro start j h
    unfold rangeStepF at h
    split at h
    · rcases List.mem_cons.mp h with e | h
      · exact ⟨by omega, by omega, 0, by omega⟩
      · obtain ⟨h1, h2, m, h3⟩ := ih h
        exact ⟨by omega, h2, m + 1, by rw [h3, Nat.add_mul]; omega⟩
    · simp at h

/-- In a leaf only the odd indices matter. -/
theorem flat_leaf_range (ks : List Nat) : ∀ fuel start stop, start % 2 = 1 → stop - start ≤ fuel →
    (rangeStepF stop 2 fuel start).flatMap (piece ks []) = (List.range' start (stop - start)).flatMap (piece ks []) := by
  intro fuel
  induction fuel with
  | zero => intro start stop ho hf; rw [show stop - start = 0 by omega]; rfl
  | succ fuel ih =>
    intro start stop ho hf
    unfold rangeStepF
    split
    · rename_i hlt
      rw [List.flatMap_cons, ih (start + 2) stop (by omega) (by omega)]
      rw [show stop - start = (stop - (start + 1)) + 1 by omega, List.range'_succ, List.flatMap_cons]
      congr 1
      by_cases h1 : start + 1 < stop
      · rw [show stop - (start + 1) = (stop - (start + 2)) + 1 by omega, List.range'_succ, List.flatMap_cons]
        have : piece ks [] (start + 1) = [] := by
          have : (start + 1) % 2 = 0 := by omega
          simp [piece, this]
        rw [this]; rfl
      · rw [show stop - (start + 1) = 0 by omega, show stop - (start + 2) = 0 by omega]; rfl
    · rename_i hlt
      rw [show stop - start = 0 by omega]; rfl

theorem rangeStepF_pairwise {stop step : Nat} (hs : 0 < step) : ∀ fuel start,
    (rangeStepF stop step fuel start).Pairwise (· < ·) := by
  intro fuel
  induction fuel with
  | zero => intro start; exact List.Pairwise.nil
  | succ fuel ih =>
    intro start
    unfold rangeStepF
    split
    · refine List.pairwise_cons.mpr ⟨fun j hj => ?_, ih _⟩
      have := (rangeStepF_mem hj).1
      omega
    · exact List.Pairwise.nil

/-- What `make_child_key_index_iter` does once the search in the node has returned. -/
def iterOf (conf : TraverseConfig) (m : Option Nat) (index nKeys nChildren : Nat) : List Nat :=
  let leaf := nChildren == 0
  let stepBy := if leaf then 2 else 1
  let inclusive := if conf.reversed then conf.maxInclusive else conf.minInclusive
  let start : Option Nat :=
    if m.isSome then
      let keyIndex := index * 2 + 1
      if inclusive then some keyIndex
      else if !conf.reversed then some (keyIndex + stepBy)
      else if keyIndex = 1 ∧ stepBy = 2 then none
      else some (keyIndex - stepBy)
    else
      let childIndex := index * 2
      if !leaf then some childIndex
      else if !conf.reversed then some (childIndex + 1)
      else if childIndex = 0 then some 0
      else some (childIndex - 1)
  match start with
  | none => []
  | some start =>
    let (start, stop) :=
      if !conf.reversed then (start, nKeys * 2 + 1)
      else if leaf then (1, start + 1)
      else (0, start + 1)
    let iter := rangeStep start stop stepBy
    if conf.reversed then iter.reverse else iter

/-- The key is not before the bound at which a traversal starts. -/
def StartOK (conf : TraverseConfig) (k : Bytes) : Prop :=
  if conf.reversed then BelowMax conf.maxValue conf.maxInclusive k else AboveMin conf.minValue conf.minInclusive k

def startKey (conf : TraverseConfig) : LimitValue := if conf.reversed then conf.maxValue else conf.minValue

/-- A good list of indices: it skips only keys out of bounds, a key out of bounds is followed by
keys out of bounds only, and of the node's own keys it has those satisfying `st`. -/
structure WalkOK (p : Nat → Bool) (st : Nat → Prop) (rev : Bool) (ks : List Nat) (ts : List T) (is : List Nat) : Prop where
  filt : (flatIdx rev ks ts is).filter p = (dirFlat rev (flatL ks ts)).filter p
  cut : is.Pairwise fun j j' => j % 2 = 1 → ∀ k ∈ piece ks ts j, p k = false →
    ∀ x ∈ piece ks ts j', p x = false
  valid : ∀ j ∈ is, if j % 2 = 0 then j / 2 < ts.length else j / 2 < ks.length
  sub : ((dirFlat rev is).Sublist (List.range (2 * ks.length + 1)))
  start : ∀ j x, ks[j]? = some x → (2 * j + 1 ∈ is ↔ st x)

theorem flatIdx_rev (ks : List Nat) (ts : List T) (is : List Nat) :
    flatIdx true ks ts is.reverse = (is.flatMap (piece ks ts)).reverse := by
  unfold flatIdx
  induction is with
  | nil => rfl
  | cons i is ih => simp [List.flatMap_append, ih, pieceD]

theorem flatIdx_fwd (ks : List Nat) (ts : List T) (is : List Nat) :
    flatIdx false ks ts is = is.flatMap (piece ks ts) := by
  unfold flatIdx
  congr 1

theorem filter_none {p : Nat → Bool} {l : List Nat} (h : ∀ x ∈ l, p x = false) : l.filter p = [] := by
  rw [List.filter_eq_nil_iff]
  intro a ha
  simp [h a ha]

theorem pieces_lt {c : List Bytes} {ks : List Nat} {ts : List T} (hl : ts = [] ∨ ts.length = ks.length + 1)
    (hs : Srt c (flatL ks ts)) {j j' x y : Nat} (hj : j < j') (hx : x ∈ piece ks ts j) (hy : y ∈ piece ks ts j') :
    keyOf c x < keyOf c y := by
  have hj' : j' < 2 * ks.length + 1 := by
    unfold piece at hy
    split at hy
    · cases h : ts[j' / 2]? with
      | none => simp [h] at hy
      | some t =>
        have := (List.getElem?_eq_some_iff.mp h).1
        rcases hl with hl | hl
        · simp [hl] at this
        · omega
    · cases h : ks[j' / 2]? with
      | none => simp [h] at hy
      | some t =>
        have := (List.getElem?_eq_some_iff.mp h).1
        omega
  have h1 := flat_pieces ks ts hl
  unfold Srt at hs
  rw [← h1, List.pairwise_flatMap] at hs
  have h2 := List.pairwise_iff_getElem.mp hs.2 j j' (by simp; omega) (by simp; omega) hj
  simp only [List.getElem_range] at h2
  exact h2 x hx y hy

theorem piece_odd {ks : List Nat} {ts : List T} {j x : Nat} (ho : j % 2 = 1) :
    x ∈ piece ks ts j ↔ ks[j / 2]? = some x := by
  simp [piece, ho]

theorem range_split (st n : Nat) (h : st ≤ n) : List.range n = List.range st ++ List.range' st (n - st) := by
  rw [List.range_eq_range', List.range_eq_range']
  have := @List.range'_append_1 0 st (n - st)
  rw [Nat.zero_add] at this
  rw [this]
  congr 1
  omega

theorem range'_tail {ks : List Nat} {st n : Nat} (he : st % 2 = 0) :
    (List.range' st (n - st)).flatMap (piece ks []) = (List.range' (st + 1) (n - (st + 1))).flatMap (piece ks []) := by
  by_cases h : st < n
  · rw [show n - st = (n - (st + 1)) + 1 by omega, List.range'_succ, List.flatMap_cons]
    simp [piece, he]
  · rw [show n - st = 0 by omega, show n - (st + 1) = 0 by omega]; rfl

theorem sub_range {is : List Nat} {n : Nat} (hp : is.Pairwise (· < ·)) (hb : ∀ j ∈ is, j < n) :
    is.Sublist (List.range n) := by
  have h1 : is.Perm ((List.range n).filter (· ∈ is)) := by
    rw [List.perm_ext_iff_of_nodup]
    · intro a
      simp only [List.mem_filter, List.mem_range, decide_eq_true_eq]
      exact ⟨fun h => ⟨hb a h, h⟩, fun h => h.2⟩
    · exact hp.imp (fun h => Nat.ne_of_lt h)
    · exact (List.nodup_range).filter _
  have h2 : is = (List.range n).filter (· ∈ is) := by
    refine List.Perm.eq_of_pairwise (le := (· < ·)) ?_ hp ?_ h1
    · intro a b _ _ h h'; omega
    · exact List.Pairwise.filter _ List.pairwise_lt_range
  rw [h2]
  exact List.filter_sublist

theorem piece_bound {ks : List Nat} {ts : List T} (hl : ts = [] ∨ ts.length = ks.length + 1) {j x : Nat}
    (hx : x ∈ piece ks ts j) : j < 2 * ks.length + 1 := by
  unfold piece at hx
  split at hx
  · cases h : ts[j / 2]? with
    | none => simp [h] at hx
    | some t =>
      have := (List.getElem?_eq_some_iff.mp h).1
      rcases hl with hl | hl
      · simp [hl] at this
      · omega
  · cases h : ks[j / 2]? with
    | none => simp [h] at hx
    | some t =>
      have := (List.getElem?_eq_some_iff.mp h).1
      omega

theorem piece_key {ks : List Nat} {ts : List T} {i x : Nat} (h : ks[i]? = some x) : x ∈ piece ks ts (2 * i + 1) := by
  rw [piece_odd (by omega), show (2 * i + 1) / 2 = i by omega, h]

/-- The forward case, from an effective starting index. -/
theorem walk_fwd {c : List Bytes} {conf : TraverseConfig} {ks : List Nat} {ts : List T}
    (hl : ts = [] ∨ ts.length = ks.length + 1) (hs : Srt c (flatL ks ts)) (hS : conf.Sound) {st : Nat}
    {is : List Nat} (hst : st ≤ 2 * ks.length + 1)
    (hA : is.flatMap (piece ks ts) = (List.range' st (2 * ks.length + 1 - st)).flatMap (piece ks ts))
    (hB : ∀ j < st, ∀ x ∈ piece ks ts j, ¬ AboveMin conf.minValue conf.minInclusive (keyOf c x))
    (hC : ∀ j ∈ is, j % 2 = 1 → ∀ x ∈ piece ks ts j, AboveMin conf.minValue conf.minInclusive (keyOf c x))
    (hp : is.Pairwise (· < ·)) (hb : ∀ j ∈ is, j < 2 * ks.length + 1) (hodd : ts = [] → ∀ j ∈ is, j % 2 = 1) :
    WalkOK (fun q => conf.inBounds (keyOf c q)) (fun q => AboveMin conf.minValue conf.minInclusive (keyOf c q)) false ks ts is := by
  refine ⟨?_, ?_, ?_, sub_range hp hb, ?_⟩
  · rw [flatIdx_fwd, hA, dirFlat, if_neg (by simp), ← flat_pieces ks ts hl, range_split st _ hst,
      List.flatMap_append, List.filter_append, filter_none (l := (List.range st).flatMap (piece ks ts)),
      List.nil_append]
    intro x hx
    obtain ⟨j, hj, hx⟩ := List.mem_flatMap.mp hx
    have := hB j (List.mem_range.mp hj) x hx
    cases hin : conf.inBounds (keyOf c x) with
    | false => rfl
    | true => exact absurd ((hS _).mp hin).1 this
  · refine List.Pairwise.imp_of_mem ?_ hp
    intro j j' hj hj' hlt ho k hk hpk x hx
    cases hin : conf.inBounds (keyOf c x) with
    | false => rfl
    | true =>
      have h1 := (hS _).mp hin
      have h2 := belowMax_down h1.2 (pieces_lt hl hs hlt hk hx)
      have := (hS _).mpr ⟨hC j hj ho k hk, h2⟩
      rw [this] at hpk
      exact absurd hpk (by simp)
  · intro j hj
    have := hb j hj
    split
    · rename_i h0
      rcases hl with hl | hl
      · have := hodd hl j hj; omega
      · omega
    · omega
  · intro j x hx
    have hx' := piece_key (ts := ts) hx
    constructor
    · intro h; exact hC _ h (by omega) x hx'
    · intro h
      have h1 : st ≤ 2 * j + 1 := Nat.le_of_not_lt fun hlt => hB _ hlt x hx' h
      have h2 := piece_bound hl hx'
      have h3 : x ∈ is.flatMap (piece ks ts) := by
        rw [hA]
        exact List.mem_flatMap.mpr ⟨2 * j + 1, List.mem_range'_1.mpr ⟨h1, by omega⟩, hx'⟩
      obtain ⟨j', hj', hm⟩ := List.mem_flatMap.mp h3
      rcases Nat.lt_trichotomy j' (2 * j + 1) with hlt | rfl | hlt
      · exact absurd (pieces_lt hl hs hlt hm hx') (blt_irrefl _)
      · exact hj'
      · exact absurd (pieces_lt hl hs hlt hx' hm) (blt_irrefl _)

/-- The backward case: the pieces before `en` are walked, last first. -/
theorem walk_bwd {c : List Bytes} {conf : TraverseConfig} {ks : List Nat} {ts : List T}
    (hl : ts = [] ∨ ts.length = ks.length + 1) (hs : Srt c (flatL ks ts)) (hS : conf.Sound) {en : Nat}
    {is : List Nat} (hen : en ≤ 2 * ks.length + 1)
    (hA : is.flatMap (piece ks ts) = (List.range en).flatMap (piece ks ts))
    (hB : ∀ j, en ≤ j → ∀ x ∈ piece ks ts j, ¬ BelowMax conf.maxValue conf.maxInclusive (keyOf c x))
    (hC : ∀ j ∈ is, j % 2 = 1 → ∀ x ∈ piece ks ts j, BelowMax conf.maxValue conf.maxInclusive (keyOf c x))
    (hp : is.Pairwise (· < ·)) (hb : ∀ j ∈ is, j < 2 * ks.length + 1) (hodd : ts = [] → ∀ j ∈ is, j % 2 = 1) :
    WalkOK (fun q => conf.inBounds (keyOf c q)) (fun q => BelowMax conf.maxValue conf.maxInclusive (keyOf c q)) true ks ts is.reverse := by
  refine ⟨?_, ?_, ?_, by simpa [dirFlat] using sub_range hp hb, ?_⟩
  · rw [flatIdx_rev, hA, dirFlat, if_pos rfl, ← flat_pieces ks ts hl, range_split en _ hen,
      List.flatMap_append, List.reverse_append, List.filter_append,
      filter_none (l := ((List.range' en (2 * ks.length + 1 - en)).flatMap (piece ks ts)).reverse),
      List.nil_append]
    intro x hx
    obtain ⟨j, hj, hx⟩ := List.mem_flatMap.mp (List.mem_reverse.mp hx)
    have := hB j (List.mem_range'_1.mp hj).1 x hx
    cases hin : conf.inBounds (keyOf c x) with
    | false => rfl
    | true => exact absurd ((hS _).mp hin).2 this
  · rw [List.pairwise_reverse]
    refine List.Pairwise.imp_of_mem ?_ hp
    intro j j' hj hj' hlt ho k hk hpk x hx
    cases hin : conf.inBounds (keyOf c x) with
    | false => rfl
    | true =>
      have h1 := (hS _).mp hin
      have h2 := aboveMin_up h1.1 (pieces_lt hl hs hlt hx hk)
      have := (hS _).mpr ⟨h2, hC j' hj' ho k hk⟩
      rw [this] at hpk
      exact absurd hpk (by simp)
  · intro j hj
    have hj := List.mem_reverse.mp hj
    have := hb j hj
    split
    · rename_i h0
      rcases hl with hl | hl
      · have := hodd hl j hj; omega
      · omega
    · omega
  · intro j x hx
    have hx' := piece_key (ts := ts) hx
    rw [List.mem_reverse]
    constructor
    · intro h; exact hC _ h (by omega) x hx'
    · intro h
      have h1 : 2 * j + 1 < en := Nat.lt_of_not_le fun hle => hB _ hle x hx' h
      have h3 : x ∈ is.flatMap (piece ks ts) := by
        rw [hA]
        exact List.mem_flatMap.mpr ⟨2 * j + 1, List.mem_range.mpr h1, hx'⟩
      obtain ⟨j', hj', hm⟩ := List.mem_flatMap.mp h3
      rcases Nat.lt_trichotomy j' (2 * j + 1) with hlt | rfl | hlt
      · exact absurd (pieces_lt hl hs hlt hm hx') (blt_irrefl _)
      · exact hj'
      · exact absurd (pieces_lt hl hs hlt hx' hm) (blt_irrefl _)

theorem search_none {c : List Bytes} {key : LimitValue} {ks : List Nat} {ts : List T} {i : Nat}
    (hl : ts = [] ∨ ts.length = ks.length + 1) (hs : Srt c (flatL ks ts)) (h : SearchPost c key ks (none, i)) :
    i ≤ ks.length ∧ (∀ j < 2 * i, ∀ x ∈ piece ks ts j, key.cmp (keyOf c x) = .gt) ∧
      (∀ j, 2 * i < j → ∀ x ∈ piece ks ts j, key.cmp (keyOf c x) = .lt) := by
  obtain ⟨hi, h1, h2⟩ := h
  refine ⟨hi, fun j hj x hx => ?_, fun j hj x hx => ?_⟩
  · have hk : ks[i - 1]? = some (ks[i - 1]'(by omega)) := List.getElem?_eq_getElem _
    have hg := h1 (ks[i - 1]'(by omega)) (by
      rw [List.mem_take_iff_getElem]
      exact ⟨i - 1, by omega, rfl⟩)
    have hp := piece_key (ts := ts) hk
    rw [show 2 * (i - 1) + 1 = 2 * i - 1 by omega] at hp
    by_cases e : j = 2 * i - 1
    · subst e
      rw [piece_odd (by omega)] at hx hp
      rw [hp] at hx
      cases hx
      exact hg
    · exact LimitValue.cmp_gt_trans hg (pieces_lt hl hs (by omega) hx hp)
  · have hb := piece_bound hl hx
    have hk : ks[i]? = some (ks[i]'(by omega)) := List.getElem?_eq_getElem _
    have hg := h2 (ks[i]'(by omega)) (by
      rw [List.mem_drop_iff_getElem]
      exact ⟨0, by omega, by simp⟩)
    have hp := piece_key (ts := ts) hk
    by_cases e : j = 2 * i + 1
    · subst e
      rw [piece_odd (by omega)] at hx hp
      rw [hp] at hx
      cases hx
      exact hg
    · exact LimitValue.cmp_lt_trans hg (pieces_lt hl hs (by omega) hp hx)

theorem search_some {c : List Bytes} {key : LimitValue} {ks : List Nat} {ts : List T} {i q : Nat}
    (hl : ts = [] ∨ ts.length = ks.length + 1) (hs : Srt c (flatL ks ts)) (h : SearchPost c key ks (some q, i)) :
    i < ks.length ∧ (∀ j < 2 * i + 1, ∀ x ∈ piece ks ts j, key.cmp (keyOf c x) = .gt) ∧
      (∀ x ∈ piece ks ts (2 * i + 1), key.cmp (keyOf c x) = .eq) ∧
      (∀ j, 2 * i + 1 < j → ∀ x ∈ piece ks ts j, key.cmp (keyOf c x) = .lt) := by
  obtain ⟨h1, h2⟩ := h
  have hp := piece_key (ts := ts) h1
  refine ⟨(List.getElem?_eq_some_iff.mp h1).1, fun j hj x hx => ?_, fun x hx => ?_, fun j hj x hx => ?_⟩
  · exact LimitValue.cmp_eq_gt h2 (pieces_lt hl hs hj hx hp)
  · rw [piece_odd (by omega)] at hx hp
    rw [hp] at hx
    cases hx
    exact h2
  · exact LimitValue.cmp_eq_lt h2 (pieces_lt hl hs hj hp hx)

theorem rangeStep_pairwise (start stop : Nat) {step : Nat} (h : 0 < step) :
    (rangeStep start stop step).Pairwise (· < ·) := rangeStepF_pairwise h _ _

theorem rangeStep_mem {start stop step j : Nat} (h : j ∈ rangeStep start stop step) :
    start ≤ j ∧ j < stop ∧ ∃ m, j = start + m * step := rangeStepF_mem h

/-- The forward iterator of a node with children. -/
theorem iter_fwd_node {c : List Bytes} {conf : TraverseConfig} {ks : List Nat} {ts : List T}
    (hl : ts.length = ks.length + 1) (hs : Srt c (flatL ks ts)) (hS : conf.Sound) {st : Nat}
    (hst : st ≤ 2 * ks.length + 1)
    (hB : ∀ j < st, ∀ x ∈ piece ks ts j, ¬ AboveMin conf.minValue conf.minInclusive (keyOf c x))
    (hC : ∀ j, st ≤ j → j % 2 = 1 → ∀ x ∈ piece ks ts j, AboveMin conf.minValue conf.minInclusive (keyOf c x)) :
    WalkOK (fun q => conf.inBounds (keyOf c q)) (fun q => AboveMin conf.minValue conf.minInclusive (keyOf c q)) false ks ts (rangeStep st (ks.length * 2 + 1) 1) := by
  refine walk_fwd (.inr hl) hs hS hst ?_ hB ?_ (rangeStep_pairwise _ _ (by omega)) ?_ ?_
  · rw [rangeStep_one, Nat.mul_comm]
  · intro j hj; exact hC j (rangeStep_mem hj).1
  · intro j hj; have := (rangeStep_mem hj).2.1; omega
  · intro h; simp [h] at hl

/-- The forward iterator of a leaf. -/
theorem iter_fwd_leaf {c : List Bytes} {conf : TraverseConfig} {ks : List Nat}
    (hs : Srt c (flatL ks [])) (hS : conf.Sound) {st : Nat} (ho : st % 2 = 1)
    (hst : st ≤ 2 * ks.length + 1)
    (hB : ∀ j < st, ∀ x ∈ piece ks [] j, ¬ AboveMin conf.minValue conf.minInclusive (keyOf c x))
    (hC : ∀ j, st ≤ j → j % 2 = 1 → ∀ x ∈ piece ks [] j, AboveMin conf.minValue conf.minInclusive (keyOf c x)) :
    WalkOK (fun q => conf.inBounds (keyOf c q)) (fun q => AboveMin conf.minValue conf.minInclusive (keyOf c q)) false ks [] (rangeStep st (ks.length * 2 + 1) 2) := by
  refine walk_fwd (.inl rfl) hs hS hst ?_ hB ?_ (rangeStep_pairwise _ _ (by omega)) ?_ ?_
  · rw [rangeStep, flat_leaf_range _ _ _ _ ho (Nat.le_refl _), Nat.mul_comm]
  · intro j hj; exact hC j (rangeStep_mem hj).1
  · intro j hj; have := (rangeStep_mem hj).2.1; omega
  · intro _ j hj; obtain ⟨_, _, m, e⟩ := rangeStep_mem hj; omega

/-- The backward iterator of a node with children. -/
theorem iter_bwd_node {c : List Bytes} {conf : TraverseConfig} {ks : List Nat} {ts : List T}
    (hl : ts.length = ks.length + 1) (hs : Srt c (flatL ks ts)) (hS : conf.Sound) {en : Nat}
    (hen : en ≤ 2 * ks.length + 1)
    (hB : ∀ j, en ≤ j → ∀ x ∈ piece ks ts j, ¬ BelowMax conf.maxValue conf.maxInclusive (keyOf c x))
    (hC : ∀ j < en, j % 2 = 1 → ∀ x ∈ piece ks ts j, BelowMax conf.maxValue conf.maxInclusive (keyOf c x)) :
    WalkOK (fun q => conf.inBounds (keyOf c q)) (fun q => BelowMax conf.maxValue conf.maxInclusive (keyOf c q)) true ks ts (rangeStep 0 en 1).reverse := by
  refine walk_bwd (.inr hl) hs hS hen ?_ hB ?_ (rangeStep_pairwise _ _ (by omega)) ?_ ?_
  · rw [rangeStep_one, Nat.sub_zero, ← List.range_eq_range']
  · intro j hj; exact hC j (rangeStep_mem hj).2.1
  · intro j hj; have := (rangeStep_mem hj).2.1; omega
  · intro h; simp [h] at hl

/-- The backward iterator of a leaf. -/
theorem iter_bwd_leaf {c : List Bytes} {conf : TraverseConfig} {ks : List Nat}
    (hs : Srt c (flatL ks [])) (hS : conf.Sound) {en : Nat} (hen : en ≤ 2 * ks.length + 1)
    (hB : ∀ j, en ≤ j → ∀ x ∈ piece ks [] j, ¬ BelowMax conf.maxValue conf.maxInclusive (keyOf c x))
    (hC : ∀ j < en, j % 2 = 1 → ∀ x ∈ piece ks [] j, BelowMax conf.maxValue conf.maxInclusive (keyOf c x)) :
    WalkOK (fun q => conf.inBounds (keyOf c q)) (fun q => BelowMax conf.maxValue conf.maxInclusive (keyOf c q)) true ks [] (rangeStep 1 en 2).reverse := by
  refine walk_bwd (.inl rfl) hs hS hen ?_ hB ?_ (rangeStep_pairwise _ _ (by omega)) ?_ ?_
  · rw [rangeStep, flat_leaf_range _ _ _ _ (by omega) (Nat.le_refl _)]
    cases en with
    | zero => rfl
    | succ n =>
      have := range'_tail (ks := ks) (st := 0) (n := n + 1) (by omega)
      rw [Nat.sub_zero] at this
      rw [List.range_eq_range', this]
  · intro j hj; exact hC j (rangeStep_mem hj).2.1
  · intro j hj; have := (rangeStep_mem hj).2.1; omega
  · intro _ j hj; obtain ⟨_, _, m, e⟩ := rangeStep_mem hj; omega

theorem not_above {l : LimitValue} {incl : Bool} {k : Bytes} (h : l.cmp k = .gt) : ¬ AboveMin l incl k := by
  rw [aboveMin_iff, h]; simp

theorem not_below {l : LimitValue} {incl : Bool} {k : Bytes} (h : l.cmp k = .lt) : ¬ BelowMax l incl k := by
  rw [belowMax_iff, h]; simp

theorem is_above {l : LimitValue} {incl : Bool} {k : Bytes} (h : l.cmp k = .lt) : AboveMin l incl k := by
  rw [aboveMin_iff]; exact .inl h

theorem is_below {l : LimitValue} {incl : Bool} {k : Bytes} (h : l.cmp k = .gt) : BelowMax l incl k := by
  rw [belowMax_iff]; exact .inl h

theorem piece_leaf_even {ks : List Nat} {j x : Nat} (h : j % 2 = 0) : ¬ x ∈ piece ks [] j := by
  simp [piece, h]

theorem iter_good {c : List Bytes} {conf : TraverseConfig} {ks : List Nat} {ts : List T}
    (hl : ts = [] ∨ ts.length = ks.length + 1) (hs : Srt c (flatL ks ts)) (hS : conf.Sound)
    {m : Option Nat} {i : Nat} (h : SearchPost c (startKey conf) ks (m, i)) :
    WalkOK (fun q => conf.inBounds (keyOf c q)) (fun q => StartOK conf (keyOf c q)) conf.reversed ks ts (iterOf conf m i ks.length ts.length) := by
  cases hrev : conf.reversed with
  | false =>
    have hst : (fun q => StartOK conf (keyOf c q)) = fun q => AboveMin conf.minValue conf.minInclusive (keyOf c q) := by
      funext q; simp only [StartOK, hrev, Bool.false_eq_true, if_false]
    rw [hst]
    simp only [startKey, hrev, Bool.false_eq_true, if_false, if_true] at h
    cases m with
    | none =>
      obtain ⟨hi, h1, h2⟩ := search_none hl hs h
      rcases hl with rfl | hl
      · have : iterOf conf none i ks.length ([] : List T).length = rangeStep (i * 2 + 1) (ks.length * 2 + 1) 2 := by
          simp [iterOf, hrev]
        rw [this]
        refine iter_fwd_leaf hs hS (by omega) (by omega) ?_ ?_
        · intro j hj x hx
          by_cases e : j = 2 * i
          · exact absurd hx (piece_leaf_even (by omega))
          · exact not_above (h1 j (by omega) x hx)
        · intro j hj _ x hx
          exact is_above (h2 j (by omega) x hx)
      · have : iterOf conf none i ks.length ts.length = rangeStep (i * 2) (ks.length * 2 + 1) 1 := by
          simp [iterOf, hrev, hl]
        rw [this]
        refine iter_fwd_node hl hs hS (by omega) ?_ ?_
        · intro j hj x hx
          exact not_above (h1 j (by omega) x hx)
        · intro j hj _ x hx
          exact is_above (h2 j (by omega) x hx)
    | some q =>
      obtain ⟨hi, h1, h2, h3⟩ := search_some hl hs h
      by_cases hincl : conf.minInclusive = true
      · have hB : ∀ j < i * 2 + 1, ∀ x ∈ piece ks ts j, ¬ AboveMin conf.minValue conf.minInclusive (keyOf c x) :=
          fun j hj x hx => not_above (h1 j (by omega) x hx)
        have hC : ∀ j, i * 2 + 1 ≤ j → j % 2 = 1 → ∀ x ∈ piece ks ts j,
            AboveMin conf.minValue conf.minInclusive (keyOf c x) := by
          intro j hj _ x hx
          by_cases e : j = 2 * i + 1
          · subst e
            exact (aboveMin_iff ..).mpr (.inr ⟨hincl, h2 x hx⟩)
          · exact is_above (h3 j (by omega) x hx)
        rcases hl with rfl | hl
        · have : iterOf conf (some q) i ks.length ([] : List T).length
              = rangeStep (i * 2 + 1) (ks.length * 2 + 1) 2 := by
            simp [iterOf, hrev, hincl]
          rw [this]
          exact iter_fwd_leaf hs hS (by omega) (by omega) hB hC
        · have : iterOf conf (some q) i ks.length ts.length = rangeStep (i * 2 + 1) (ks.length * 2 + 1) 1 := by
            simp [iterOf, hrev, hl, hincl]
          rw [this]
          exact iter_fwd_node hl hs hS (by omega) hB hC
      · have hincl : conf.minInclusive = false := by simpa using hincl
        have hB : ∀ j < i * 2 + 2, ∀ x ∈ piece ks ts j, ¬ AboveMin conf.minValue conf.minInclusive (keyOf c x) := by
          intro j hj x hx
          by_cases e : j = 2 * i + 1
          · subst e
            rw [aboveMin_iff, h2 x hx, hincl]; simp
          · exact not_above (h1 j (by omega) x hx)
        have hC : ∀ j, i * 2 + 2 ≤ j → j % 2 = 1 → ∀ x ∈ piece ks ts j,
            AboveMin conf.minValue conf.minInclusive (keyOf c x) :=
          fun j hj _ x hx => is_above (h3 j (by omega) x hx)
        rcases hl with rfl | hl
        · have : iterOf conf (some q) i ks.length ([] : List T).length
              = rangeStep (i * 2 + 3) (ks.length * 2 + 1) 2 := by
            simp [iterOf, hrev, hincl]
          rw [this]
          refine iter_fwd_leaf hs hS (by omega) (by omega) ?_ (fun j hj => hC j (by omega))
          intro j hj x hx
          by_cases e : j = 2 * i + 2
          · exact absurd hx (piece_leaf_even (by omega))
          · exact hB j (by omega) x hx
        · have : iterOf conf (some q) i ks.length ts.length = rangeStep (i * 2 + 2) (ks.length * 2 + 1) 1 := by
            simp [iterOf, hrev, hl, hincl]
          rw [this]
          exact iter_fwd_node hl hs hS (by omega) hB hC
  | true =>
    have hst : (fun q => StartOK conf (keyOf c q)) = fun q => BelowMax conf.maxValue conf.maxInclusive (keyOf c q) := by
      funext q; simp only [StartOK, hrev, if_true]
    rw [hst]
    simp only [startKey, hrev, Bool.false_eq_true, if_false, if_true] at h
    cases m with
    | none =>
      obtain ⟨hi, h1, h2⟩ := search_none hl hs h
      rcases hl with rfl | hl
      · have : iterOf conf none i ks.length ([] : List T).length = (rangeStep 1 (i * 2 - 1 + 1) 2).reverse := by
          by_cases h0 : i = 0
          · simp [iterOf, hrev, h0]
          · have h2 : i * 2 ≠ 0 := by omega
            simp [iterOf, hrev, h2]
        rw [this]
        refine iter_bwd_leaf hs hS (by omega) ?_ ?_
        · intro j hj x hx
          by_cases e : j % 2 = 0
          · exact absurd hx (piece_leaf_even e)
          · exact not_below (h2 j (by omega) x hx)
        · intro j hj ho x hx
          exact is_below (h1 j (by omega) x hx)
      · have : iterOf conf none i ks.length ts.length = (rangeStep 0 (i * 2 + 1) 1).reverse := by
          simp [iterOf, hrev, hl]
        rw [this]
        refine iter_bwd_node hl hs hS (by omega) ?_ ?_
        · intro j hj x hx
          exact not_below (h2 j (by omega) x hx)
        · intro j hj _ x hx
          exact is_below (h1 j (by omega) x hx)
    | some q =>
      obtain ⟨hi, h1, h2, h3⟩ := search_some hl hs h
      by_cases hincl : conf.maxInclusive = true
      · have hB : ∀ j, i * 2 + 2 ≤ j → ∀ x ∈ piece ks ts j, ¬ BelowMax conf.maxValue conf.maxInclusive (keyOf c x) :=
          fun j hj x hx => not_below (h3 j (by omega) x hx)
        have hC : ∀ j < i * 2 + 2, j % 2 = 1 → ∀ x ∈ piece ks ts j,
            BelowMax conf.maxValue conf.maxInclusive (keyOf c x) := by
          intro j hj _ x hx
          by_cases e : j = 2 * i + 1
          · subst e
            exact (belowMax_iff ..).mpr (.inr ⟨hincl, h2 x hx⟩)
          · exact is_below (h1 j (by omega) x hx)
        rcases hl with rfl | hl
        · have : iterOf conf (some q) i ks.length ([] : List T).length
              = (rangeStep 1 (i * 2 + 2) 2).reverse := by
            simp [iterOf, hrev, hincl]
          rw [this]
          exact iter_bwd_leaf hs hS (by omega) hB hC
        · have : iterOf conf (some q) i ks.length ts.length = (rangeStep 0 (i * 2 + 2) 1).reverse := by
            simp [iterOf, hrev, hl, hincl]
          rw [this]
          exact iter_bwd_node hl hs hS (by omega) hB hC
      · have hincl : conf.maxInclusive = false := by simpa using hincl
        have hB : ∀ j, i * 2 + 1 ≤ j → ∀ x ∈ piece ks ts j, ¬ BelowMax conf.maxValue conf.maxInclusive (keyOf c x) := by
          intro j hj x hx
          by_cases e : j = 2 * i + 1
          · subst e
            rw [belowMax_iff, h2 x hx, hincl]; simp
          · exact not_below (h3 j (by omega) x hx)
        have hC : ∀ j < i * 2 + 1, j % 2 = 1 → ∀ x ∈ piece ks ts j,
            BelowMax conf.maxValue conf.maxInclusive (keyOf c x) :=
          fun j hj _ x hx => is_below (h1 j (by omega) x hx)
        rcases hl with rfl | hl
        · have : iterOf conf (some q) i ks.length ([] : List T).length
              = (rangeStep 1 (i * 2 - 1 + 1) 2).reverse := by
            by_cases h0 : i = 0
            · subst h0; simp [iterOf, hrev, hincl, rangeStep, rangeStepF]
            · have : i * 2 + 1 - 2 = i * 2 - 1 := by omega
              have h2 : i * 2 ≠ 0 := by omega
              simp [iterOf, hrev, hincl, h2, this]
          rw [this]
          refine iter_bwd_leaf hs hS (by omega) ?_ (fun j hj => hC j (by omega))
          intro j hj x hx
          by_cases e : j % 2 = 0
          · exact absurd hx (piece_leaf_even e)
          · exact hB j (by omega) x hx
        · have : iterOf conf (some q) i ks.length ts.length = (rangeStep 0 (i * 2 + 1) 1).reverse := by
            simp [iterOf, hrev, hl, hincl]
          rw [this]
          exact iter_bwd_node hl hs hS (by omega) hB hC

/-- Building the iterator: which one it is. -/
theorem makeIter_is {s : St} (hw : SWF s) {a : Nat} {n : Node} (hn : s.heap[a]? = some n)
    (conf : TraverseConfig) (hS : conf.Sound) {ts : List T} (hts : n.children.length = ts.length)
    (hl : ts = [] ∨ ts.length = n.keys.length + 1)
    (hs : Srt s.core (flatL n.keys ts)) (hk : Srt s.core n.keys) (hd : ∀ q ∈ n.keys, ∃ b, blockAt s.core q = some b) :
    ∃ is s', makeChildKeyIndexIter conf a n.keys.length n.children.length s = (.ok is, s') ∧ Ext s s' ∧
      WalkOK (fun q => conf.inBounds (keyOf s.core q)) (fun q => StartOK conf (keyOf s.core q)) conf.reversed n.keys ts is ∧
      ∃ m i, is = iterOf conf m i n.keys.length ts.length := by
  obtain ⟨⟨m, i⟩, s', h1, e1, hp⟩ := getIndexOfKey_run hw hn (startKey conf) hk hd
  refine ⟨iterOf conf m i n.keys.length ts.length, s', ?_, e1, iter_good hl hs hS hp, m, i, rfl⟩
  unfold makeChildKeyIndexIter
  rw [hts]
  unfold startKey at h1
  cases hrev : conf.reversed with
  | false =>
    rw [hrev] at h1
    simp only [Bool.false_eq_true, if_false] at h1 ⊢
    rw [bind_ok h1]
    simp only [iterOf, hrev]
    generalize (ts.length == 0) = lf
    cases m <;> cases lf <;> cases hI : conf.minInclusive <;> by_cases h0 : i * 2 = 0 <;> simp [h0] <;> rfl
  | true =>
    rw [hrev] at h1
    simp only [if_true] at h1 ⊢
    rw [bind_ok h1]
    simp only [iterOf, hrev]
    generalize (ts.length == 0) = lf
    cases m <;> cases lf <;> cases hI : conf.maxInclusive <;> by_cases h0 : i * 2 = 0 <;> simp [h0] <;> rfl

/-- Building the iterator. -/
theorem makeIter_run {s : St} (hw : SWF s) {a : Nat} {n : Node} (hn : s.heap[a]? = some n)
    (conf : TraverseConfig) (hS : conf.Sound) {ts : List T} (hts : n.children.length = ts.length)
    (hl : ts = [] ∨ ts.length = n.keys.length + 1)
    (hs : Srt s.core (flatL n.keys ts)) (hk : Srt s.core n.keys) (hd : ∀ q ∈ n.keys, ∃ b, blockAt s.core q = some b) :
    ∃ is s', makeChildKeyIndexIter conf a n.keys.length n.children.length s = (.ok is, s') ∧ Ext s s' ∧
      WalkOK (fun q => conf.inBounds (keyOf s.core q)) (fun q => StartOK conf (keyOf s.core q)) conf.reversed n.keys ts is := by
  obtain ⟨is, s', h1, e1, h2, _⟩ := makeIter_is hw hn conf hS hts hl hs hk hd
  exact ⟨is, s', h1, e1, h2⟩

end Hyperbee
