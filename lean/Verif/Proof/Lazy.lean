import Verif.Proof.Cost
import Verif.Proof.Stream
/-!
# What a traversal costs

`Pay` follows a stream like `Strm` (Proof/Poll) and keeps two accounts: `B` bounds what the stream
may cost from now on, `C` what it may have cost when it has come to its end without having met a key
beyond the far limit.  Each poll is paid from both, each item pays in.  A node none of whose keys are
before the near limit pays for itself, since it has at least four keys; the others are on one path.
-/

namespace Hyperbee

/-- `x` comes after `q` in the direction of the traversal. -/
def Ahead (c : List Bytes) (conf : TraverseConfig) (q x : Nat) : Prop :=
  if conf.reversed then keyOf c x < keyOf c q else keyOf c q < keyOf c x

/-- Past the near limit and out of bounds. -/
def Beyond (c : List Bytes) (conf : TraverseConfig) (q : Nat) : Prop :=
  StartOK conf (keyOf c q) ∧ conf.inBounds (keyOf c q) = false

theorem Ahead.start {c : List Bytes} {conf : TraverseConfig} {q x : Nat} (h : Ahead c conf q x)
    (hq : StartOK conf (keyOf c q)) : StartOK conf (keyOf c x) := by
  unfold Ahead at h
  unfold StartOK at hq ⊢
  cases hr : conf.reversed with
  | false => simp only [hr, Bool.false_eq_true, if_false] at h hq ⊢; exact aboveMin_up hq h
  | true => simp only [hr, if_true] at h hq ⊢; exact belowMax_down hq h

theorem Ahead.beyond {c : List Bytes} {conf : TraverseConfig} (hS : conf.Sound) {q x : Nat} (h : Ahead c conf q x)
    (hq : Beyond c conf q) : Beyond c conf x := by
  refine ⟨h.start hq.1, ?_⟩
  cases hin : conf.inBounds (keyOf c x) with
  | false => rfl
  | true =>
    exfalso
    have h1 := (hS _).mp hin
    have hq1 := hq.1
    have hq2 := hq.2
    unfold Ahead at h
    unfold StartOK at hq1
    cases hr : conf.reversed with
    | false =>
      simp only [hr, Bool.false_eq_true, if_false] at h hq1
      rw [(hS _).mpr ⟨hq1, belowMax_down h1.2 h⟩] at hq2
      cases hq2
    | true =>
      simp only [hr, if_true] at h hq1
      rw [(hS _).mpr ⟨aboveMin_up h1.1 h, hq1⟩] at hq2
      cases hq2

/-- After a child comes a key. -/
def Alt : List Nat → Prop
  | [] => True
  | [_] => True
  | j :: j' :: is => (j % 2 = 0 → j' % 2 = 1) ∧ Alt (j' :: is)

theorem Alt.tail {j : Nat} {is : List Nat} (h : Alt (j :: is)) : Alt is := by
  cases is with
  | nil => trivial
  | cons j' is => exact h.2

theorem alt_of_odd : ∀ {is : List Nat}, (∀ j ∈ is, j % 2 = 1) → Alt is
  | [], _ => trivial
  | [_], _ => trivial
  | _ :: j' :: is, h => ⟨fun _ => h j' (by simp), alt_of_odd fun x hx => h x (List.mem_cons_of_mem _ hx)⟩

theorem alt_range' : ∀ (n st : Nat), Alt (List.range' st n)
  | 0, _ => trivial
  | 1, _ => trivial
  | n + 2, st => by
    have := alt_range' (n + 1) (st + 1)
    rw [List.range'_succ, List.range'_succ] at *
    exact ⟨fun h => by omega, this⟩

theorem alt_down : ∀ (n st : Nat), Alt (List.range' st n).reverse
  | 0, _ => trivial
  | 1, _ => trivial
  | n + 2, st => by
    have := alt_down (n + 1) st
    rw [List.range'_concat, List.reverse_append] at this ⊢
    rw [List.range'_concat, List.reverse_append]
    simp only [List.reverse_cons, List.reverse_nil, List.nil_append, List.singleton_append, Nat.one_mul] at this ⊢
    exact ⟨fun h => by omega, this⟩

theorem alt_iterOf (conf : TraverseConfig) (m : Option Nat) (i nk nc : Nat) : Alt (iterOf conf m i nk nc) := by
  have key : ∀ (o : Option Nat), (nc = 0 → conf.reversed = false → ∀ x ∈ o, x % 2 = 1) →
      Alt (match o with
        | none => []
        | some start =>
          let (start, stop) :=
            if !conf.reversed then (start, nk * 2 + 1)
            else if (nc == 0) = true then (1, start + 1)
            else (0, start + 1)
          let iter := rangeStep start stop (if (nc == 0) = true then 2 else 1)
          if conf.reversed then iter.reverse else iter) := by
    intro o ho
    cases o with
    | none => trivial
    | some st =>
      by_cases h0 : nc = 0
      · subst h0
        refine alt_of_odd fun j hj => ?_
        cases hr : conf.reversed with
        | false =>
          simp only [hr, Bool.not_false, if_true, beq_self_eq_true, Bool.false_eq_true, if_false] at hj
          obtain ⟨_, _, m, e⟩ := rangeStep_mem hj
          have := ho rfl hr st rfl
          omega
        | true =>
          simp only [hr, Bool.not_true, if_true, beq_self_eq_true, Bool.false_eq_true, if_false, List.mem_reverse] at hj
          obtain ⟨_, _, m, e⟩ := rangeStep_mem hj
          omega
      · have : (nc == 0) = false := by simpa using h0
        simp only [this, Bool.false_eq_true, if_false]
        cases hr : conf.reversed with
        | false =>
          simp only [Bool.not_false, if_true, Bool.false_eq_true, if_false, rangeStep_one]
          exact alt_range' _ _
        | true =>
          simp only [Bool.not_true, if_true, Bool.false_eq_true, if_false, rangeStep_one]
          exact alt_down _ _
  unfold iterOf
  refine key _ fun h0 hr x hx => ?_
  subst h0
  simp only [hr, beq_self_eq_true, if_true, Bool.not_true, Bool.not_false, Bool.false_eq_true, if_false] at hx
  split at hx
  · split at hx <;> cases hx <;> omega
  · cases hx; omega

/-- What is left of an index iterator. -/
structure Trail (c : List Bytes) (conf : TraverseConfig) (ks : List Nat) (ts : List T) (is : List Nat) : Prop where
  later : is.Pairwise fun j j' => ∀ q ∈ piece ks ts j, ∀ x ∈ piece ks ts j', Ahead c conf q x
  alt : Alt is
  own : ∀ j ∈ is, j % 2 = 1 → ∀ x ∈ piece ks ts j, StartOK conf (keyOf c x)
  valid : ∀ j ∈ is, if j % 2 = 0 then j / 2 < ts.length else j / 2 < ks.length

theorem Trail.tail {c : List Bytes} {conf : TraverseConfig} {ks : List Nat} {ts : List T} {j : Nat} {is : List Nat}
    (h : Trail c conf ks ts (j :: is)) : Trail c conf ks ts is :=
  ⟨(List.pairwise_cons.mp h.later).2, h.alt.tail, fun j' hj => h.own j' (List.mem_cons_of_mem _ hj),
    fun j' hj => h.valid j' (List.mem_cons_of_mem _ hj)⟩

theorem Trail.key {c : List Bytes} {conf : TraverseConfig} {ks : List Nat} {ts : List T} {j : Nat} {is : List Nat}
    (h : Trail c conf ks ts (j :: is)) (ho : j % 2 = 1) : ∃ q, q ∈ piece ks ts j := by
  have := h.valid j (by simp)
  rw [if_neg (by omega)] at this
  exact ⟨ks[j / 2], by rw [piece, if_neg (by omega), List.getElem?_eq_getElem this]; simp⟩

/-- After the first index there is nothing before the near limit. -/
theorem Trail.rest {c : List Bytes} {conf : TraverseConfig} {ks : List Nat} {ts : List T} {j : Nat} {is : List Nat}
    (h : Trail c conf ks ts (j :: is)) : ∀ j' ∈ is, ∀ x ∈ piece ks ts j', StartOK conf (keyOf c x) := by
  intro j' hj' x hx
  by_cases ho : j % 2 = 1
  · obtain ⟨q, hq⟩ := h.key ho
    exact ((List.pairwise_cons.mp h.later).1 j' hj' q hq x hx).start (h.own j (by simp) ho q hq)
  · cases is with
    | nil => simp at hj'
    | cons j2 is =>
      have ho2 := h.alt.1 (by omega)
      rcases List.mem_cons.mp hj' with rfl | hj'
      · exact h.tail.own _ (by simp) ho2 x hx
      · obtain ⟨q, hq⟩ := h.tail.key ho2
        exact ((List.pairwise_cons.mp h.tail.later).1 j' hj' q hq x hx).start (h.tail.own j2 (by simp) ho2 q hq)

/-- Number of keys in an index list. -/
def odds (is : List Nat) : Nat := is.countP (· % 2 = 1)

theorem trail_of_walk {c : List Bytes} {conf : TraverseConfig} {ks : List Nat} {ts : List T} {is : List Nat}
    (hl : ts = [] ∨ ts.length = ks.length + 1) (hs : Srt c (flatL ks ts))
    (h : WalkOK (fun q => conf.inBounds (keyOf c q)) (fun q => StartOK conf (keyOf c q)) conf.reversed ks ts is)
    (ha : Alt is) : Trail c conf ks ts is := by
  refine ⟨?_, ha, ?_, h.valid⟩
  · have hp : (dirFlat conf.reversed is).Pairwise (· < ·) := List.Pairwise.sublist h.sub List.pairwise_lt_range
    unfold Ahead
    cases hr : conf.reversed with
    | false =>
      rw [hr] at hp
      refine List.Pairwise.imp ?_ hp
      intro j j' hlt q hq x hx
      simpa using pieces_lt hl hs hlt hq hx
    | true =>
      rw [hr] at hp
      simp only [dirFlat, if_true, List.pairwise_reverse] at hp
      refine List.Pairwise.imp ?_ hp
      intro j j' hlt q hq x hx
      simpa using pieces_lt hl hs hlt hx hq
  · intro j hj ho x hx
    rw [piece_odd ho] at hx
    exact (h.start (j / 2) x hx).mp (by rw [show 2 * (j / 2) + 1 = j by omega]; exact hj)

/-- A node with nothing before the near limit is walked in full. -/
theorem odds_all {p : Nat → Bool} {st : Nat → Prop} {rev : Bool} {ks : List Nat} {ts : List T} {is : List Nat}
    (h : WalkOK p st rev ks ts is) (hall : ∀ x ∈ ks, st x) : ks.length ≤ odds is := by
  have hsub : ((List.range ks.length).map fun j => 2 * j + 1) ⊆ is.filter (· % 2 = 1) := by
    intro x hx
    obtain ⟨j, hj, rfl⟩ := List.mem_map.mp hx
    have hj := List.mem_range.mp hj
    exact List.mem_filter.mpr ⟨(h.start j _ (List.getElem?_eq_getElem hj)).mpr (hall _ (List.getElem_mem hj)),
      by simp⟩
  have hnd : ((List.range ks.length).map fun j => 2 * j + 1).Nodup :=
    List.Nodup.map (f := fun j => 2 * j + 1) (fun a b h => by simp only at h; omega) List.nodup_range
  have := (List.subperm_of_subset hnd hsub).length_le
  simpa [odds, List.countP_eq_length_filter] using this

/-! ## Accounts -/

/-- A node of the tree and the frame that walks it. -/
structure Seat (s : St) (conf : TraverseConfig) (f : Frame) (h : Nat) (n : T) : Prop where
  vw : Vw s h n
  addr : addrOf s n.ref = some f.root
  config : f.config = conf
  good : ∃ root, GoodN root h n

/-- The weights of a fetch (`a`) and of a poll (`b`): fetches are counted, or polls. -/
def Weights (a b : Int) : Prop := (a = 1 ∧ b = 0) ∨ (a = 0 ∧ b = 1)

/-- The accounts of a stream, see above. -/
inductive Pay (s : St) (conf : TraverseConfig) (a b : Int) : List Frame → T → Int → Int → Prop where
  | setup {f : Frame} {h : Nat} {n : T} {k : Nat} {int : Bool} {B C : Int} : Seat s conf f h n →
      f.nextKey = none → f.nextChild = none → f.iter = none →
      ((k = 4 ∧ f.nkcFut = false ∧ f.nkc = none ∧ f.iterFut = none) ∨
        (k = 3 ∧ f.nkcFut = true ∧ f.nkc = none ∧ f.iterFut = none) ∨
        (k = 2 ∧ f.nkc = some (n.keys.length, n.kids.length) ∧ f.iterFut = none) ∨
        (k = 1 ∧ f.nkc = some (n.keys.length, n.kids.length) ∧ f.iterFut = some false)) →
      (int = true → ∀ q ∈ n.flat, StartOK conf (keyOf s.core q)) →
      b * k + 4 * a + (a + 2 * b) + (6 * a + 8 * b) * h + (if int then 0 else (6 * a + 8 * b) * h) ≤ B →
      b * k + 4 * a + b + (if int then 0 else (6 * a + 8 * b) * h)
        - (if int then (2 * a + 2 * b) * n.keys.length else 0) ≤ C →
      Pay s conf a b [f] n B C
  | iter {f : Frame} {h : Nat} {n : T} {is : List Nat} {x : Nat × Nat} {int : Bool} {B C : Int} : Seat s conf f h n →
      f.nextKey = none → f.nextChild = none → f.nkc = some x → f.iter = some is →
      Trail s.core conf n.keys n.kids is →
      (int = true → ∀ j ∈ is, ∀ q ∈ piece n.keys n.kids j, StartOK conf (keyOf s.core q)) →
      (a + 2 * b) + (6 * a + 8 * b) * h + (if int then 0 else (6 * a + 8 * b) * h) ≤ B →
      b + (if int then 0 else (6 * a + 8 * b) * h) - (2 * a + 2 * b) * odds is ≤ C →
      Pay s conf a b [f] n B C
  | key {f : Frame} {h : Nat} {n : T} {i : Nat} {is : List Nat} {x : Nat × Nat} {B C : Int} : Seat s conf f h n →
      f.nextKey = some (i, false) → f.nextChild = none → f.nkc = some x → f.iter = some is →
      Trail s.core conf n.keys n.kids ((2 * i + 1) :: is) →
      (a + b) + (6 * a + 8 * b) * h ≤ B →
      b - (2 * a + 3 * b) - (2 * a + 2 * b) * odds is ≤ C →
      Pay s conf a b [f] n B C
  | child {f : Frame} {h : Nat} {n t : T} {i : Nat} {is : List Nat} {x : Nat × Nat} {int : Bool} {B C : Int} :
      Seat s conf f h n → f.nextKey = none → f.nextChild = some i → f.nkc = some x → f.iter = some is →
      n.kids[i]? = some t → Trail s.core conf n.keys n.kids ((2 * i) :: is) →
      (int = true → ∀ q ∈ t.flat, StartOK conf (keyOf s.core q)) →
      (a + b) + (6 * a + 8 * b) * h + (if int then 0 else (6 * a + 8 * b) * h) ≤ B →
      (if int then 0 else (6 * a + 8 * b) * h) - (2 * a + 2 * b) * odds is ≤ C →
      Pay s conf a b [f] n B C
  | sub {f c : Frame} {cs : List Frame} {h : Nat} {n t : T} {is : List Nat} {x : Nat × Nat} {Bc Cc B C : Int} :
      Seat s conf f h n → f.nextKey = none → f.nextChild = none → f.nkc = some x → f.iter = some is →
      t ∈ n.kids → Trail s.core conf n.keys n.kids is →
      (∀ j ∈ is, ∀ q ∈ piece n.keys n.kids j, StartOK conf (keyOf s.core q)) →
      (∀ q ∈ t.flat, ∀ j ∈ is, ∀ y ∈ piece n.keys n.kids j, Ahead s.core conf q y) →
      (∀ j ∈ is.head?, j % 2 = 1) → Pay s conf a b (c :: cs) t Bc Cc →
      Bc + (a + 2 * b) ≤ B → Cc + (a + 2 * b) + (6 * a + 8 * b) * h ≤ B →
      Cc + b - (2 * a + 2 * b) * odds is ≤ C →
      Pay s conf a b (f :: c :: cs) n B C
  | iterEnd {f : Frame} {h : Nat} {n : T} {is : List Nat} {x : Nat × Nat} {B C : Int} : Seat s conf f h n →
      f.nextKey = none → f.nextChild = none → f.nkc = some x → f.iter = some is →
      Trail s.core conf n.keys n.kids is → (∃ q ∈ n.flat, Beyond s.core conf q) → (∀ j ∈ is.head?, j % 2 = 1) →
      (∀ j ∈ is, ∀ q ∈ piece n.keys n.kids j, Beyond s.core conf q) → a + 2 * b ≤ B →
      Pay s conf a b [f] n B C
  | keyEnd {f : Frame} {h : Nat} {n : T} {i : Nat} {is : List Nat} {x : Nat × Nat} {B C : Int} : Seat s conf f h n →
      f.nextKey = some (i, false) → f.nextChild = none → f.nkc = some x → f.iter = some is →
      Trail s.core conf n.keys n.kids ((2 * i + 1) :: is) →
      (∀ q ∈ piece n.keys n.kids (2 * i + 1), Beyond s.core conf q) → a + b ≤ B →
      Pay s conf a b [f] n B C

theorem Seat.ext {s s' : St} {conf : TraverseConfig} {f : Frame} {h : Nat} {n : T} (v : Seat s conf f h n)
    (hw : SWF s) (e : Ext s s') : Seat s' conf f h n :=
  ⟨v.vw.ext hw e, e.addr v.addr, v.config, v.good⟩

/-- The same node in a frame that differs in its progress only. -/
theorem Seat.move {s : St} {conf : TraverseConfig} {f f' : Frame} {h : Nat} {n : T} (v : Seat s conf f h n)
    (h1 : f'.root = f.root) (h2 : f'.config = f.config) : Seat s conf f' h n :=
  ⟨v.vw, by rw [h1]; exact v.addr, by rw [h2]; exact v.config, v.good⟩

theorem Seat.kid {s : St} {conf : TraverseConfig} {f : Frame} {h : Nat} {n t : T} (v : Seat s conf f h n) {i : Nat}
    (ht : n.kids[i]? = some t) : ∃ h', h = h' + 1 ∧ Vw s h' t ∧ GoodN false h' t := by
  obtain ⟨root, hg⟩ := v.good
  have hm := List.mem_of_getElem? ht
  cases h with
  | zero =>
    exfalso
    have := hg.shape
    obtain ⟨r, ks, ts⟩ := n
    simp only [Shape] at this
    subst this
    simp [T.kids] at hm
  | succ h =>
    obtain ⟨k, vt⟩ := v.vw.kid ht
    obtain ⟨r, ks, ts⟩ := n
    obtain ⟨_, _, hk⟩ := hg
    exact ⟨h, rfl, ⟨vt.rep, vt.coh, (hk t hm).shape, vt.srt, vt.dfd⟩, hk t hm⟩

theorem Pay.ext {s s' : St} {conf : TraverseConfig} {a b : Int} {fs : List Frame} {n : T} {B C : Int}
    (h : Pay s conf a b fs n B C) (hw : SWF s) (e : Ext s s') : Pay s' conf a b fs n B C := by
  have hc := e.core
  induction h with
  | setup v h1 h2 h3 h4 h5 h6 h7 => exact .setup (v.ext hw e) h1 h2 h3 h4 (by rw [hc]; exact h5) h6 h7
  | iter v h1 h2 h3 h4 h5 h6 h7 h8 =>
    exact .iter (v.ext hw e) h1 h2 h3 h4 (by rw [hc]; exact h5) (by rw [hc]; exact h6) h7 h8
  | key v h1 h2 h3 h4 h5 h6 h7 => exact .key (v.ext hw e) h1 h2 h3 h4 (by rw [hc]; exact h5) h6 h7
  | child v h1 h2 h3 h4 h5 h6 h7 h8 h9 =>
    exact .child (v.ext hw e) h1 h2 h3 h4 h5 (by rw [hc]; exact h6) (by rw [hc]; exact h7) h8 h9
  | sub v h1 h2 h3 h4 h5 h6 h7 h8 h9 _ h11 h12 h13 ih =>
    exact .sub (v.ext hw e) h1 h2 h3 h4 h5 (by rw [hc]; exact h6) (by rw [hc]; exact h7) (by rw [hc]; exact h8) h9 ih
      h11 h12 h13
  | iterEnd v h1 h2 h3 h4 h5 h6 h7 h8 h9 =>
    exact .iterEnd (v.ext hw e) h1 h2 h3 h4 (by rw [hc]; exact h5) (by rw [hc]; exact h6) h7 (by rw [hc]; exact h8) h9
  | keyEnd v h1 h2 h3 h4 h5 h6 h7 =>
    exact .keyEnd (v.ext hw e) h1 h2 h3 h4 (by rw [hc]; exact h5) (by rw [hc]; exact h6) h7

theorem Pay.nonneg {s : St} {conf : TraverseConfig} {a b : Int} (hab : Weights a b) {fs : List Frame} {n : T} {B C : Int}
    (h : Pay s conf a b fs n B C) : 0 ≤ B := by
  induction h with
  | setup _ _ _ _ _ _ hB _ =>
    rcases hab with ⟨rfl, rfl⟩ | ⟨rfl, rfl⟩ <;> split at hB <;> omega
  | iter _ _ _ _ _ _ _ hB _ =>
    rcases hab with ⟨rfl, rfl⟩ | ⟨rfl, rfl⟩ <;> split at hB <;> omega
  | key _ _ _ _ _ _ hB _ => rcases hab with ⟨rfl, rfl⟩ | ⟨rfl, rfl⟩ <;> omega
  | child _ _ _ _ _ _ _ _ hB _ =>
    rcases hab with ⟨rfl, rfl⟩ | ⟨rfl, rfl⟩ <;> split at hB <;> omega
  | sub _ _ _ _ _ _ _ _ _ _ _ hB _ _ ih => rcases hab with ⟨rfl, rfl⟩ | ⟨rfl, rfl⟩ <;> omega
  | iterEnd _ _ _ _ _ _ _ _ _ hB => rcases hab with ⟨rfl, rfl⟩ | ⟨rfl, rfl⟩ <;> omega
  | keyEnd _ _ _ _ _ _ _ hB => rcases hab with ⟨rfl, rfl⟩ | ⟨rfl, rfl⟩ <;> omega

/-- What one poll that fetches `g` blocks costs. -/
def toll (a b : Int) (g : Nat) (ready : Bool) : Int := a * g + b * (if ready then 1 else 0)

/-- How a poll changes the accounts. -/
def PayPost (s s' : St) (conf : TraverseConfig) (a b : Int) (fs' : List Frame) (n : T) (B C w : Int) : PollR → Prop
  | .pending _ _ => Pay s' conf a b fs' n (B - w) (C - w)
  | .ready none _ => w ≤ B ∧ (w ≤ C ∨ ∃ q ∈ n.flat, Beyond s.core conf q)
  | .ready (some _) _ => Pay s' conf a b fs' n (B + (3 * a + 4 * b) - w) (C + (3 * a + 4 * b) - w)

theorem makeIter_cost {s : St} {a : Nat} {n : Node} (hn : s.heap[a]? = some n) (h8 : n.keys.length ≤ 8)
    (conf : TraverseConfig) (nk nc : Nat) : Grown 4 s (makeChildKeyIndexIter conf a nk nc s).2 := by
  have key : ∀ (sk : LimitValue) (f : Option Nat × Nat → M (List Nat)), (∀ x s1, (f x s1).2 = s1) →
      Grown 4 s ((getIndexOfKey a sk >>= f) s).2 := by
    intro sk f hf
    have := getIndexOfKey_cost hn h8 sk
    rw [bind_run]
    cases hr : getIndexOfKey a sk s with
    | mk r s1 =>
      rw [hr] at this
      cases r with
      | error e => exact this
      | ok x => simp only [hf]; exact this
  unfold makeChildKeyIndexIter
  simp only []
  refine key _ _ fun x s1 => ?_
  have hs : ∀ (o : Option Nat) (f : Nat → List Nat), ((match o with
      | none => Pure.pure []
      | some st => Pure.pure (f st) : M (List Nat)) s1).2 = s1 := by
    intro o f; cases o <;> rfl
  exact hs _ _

theorem piece_flat {n : T} (hl : n.kids = [] ∨ n.kids.length = n.keys.length + 1) {j q : Nat} (hq : q ∈ piece n.keys n.kids j) :
    q ∈ n.flat := by
  rw [T.flat_eq, ← flat_pieces _ _ hl]
  refine List.mem_flatMap.mpr ⟨j, List.mem_range.mpr ?_, hq⟩
  have := piece_bound hl hq
  omega

theorem kid_flat {n t : T} (hl : n.kids = [] ∨ n.kids.length = n.keys.length + 1) (ht : t ∈ n.kids) {q : Nat} (hq : q ∈ t.flat) :
    q ∈ n.flat := by
  obtain ⟨i, hi, rfl⟩ := List.getElem_of_mem ht
  refine piece_flat hl (j := 2 * i) ?_
  rw [piece, if_pos (by omega), show 2 * i / 2 = i by omega, List.getElem?_eq_getElem hi]
  exact hq

theorem pollSetup_pay {conf : TraverseConfig} (hS : conf.Sound) {a b : Int} (hab : Weights a b) {s : St} {f : Frame}
    {h : Nat} {n : T} {k : Nat} {int : Bool} {B C : Int} (v : Seat s conf f h n)
    (h1 : f.nextKey = none) (h2 : f.nextChild = none) (h3 : f.iter = none)
    (h4 : ((k = 4 ∧ f.nkcFut = false ∧ f.nkc = none ∧ f.iterFut = none) ∨
        (k = 3 ∧ f.nkcFut = true ∧ f.nkc = none ∧ f.iterFut = none) ∨
        (k = 2 ∧ f.nkc = some (n.keys.length, n.kids.length) ∧ f.iterFut = none) ∨
        (k = 1 ∧ f.nkc = some (n.keys.length, n.kids.length) ∧ f.iterFut = some false)))
    (h5 : int = true → ∀ q ∈ n.flat, StartOK conf (keyOf s.core q))
    (h6 : b * k + 4 * a + (a + 2 * b) + (6 * a + 8 * b) * h + (if int then 0 else (6 * a + 8 * b) * h) ≤ B)
    (h7 : b * k + 4 * a + b + (if int then 0 else (6 * a + 8 * b) * h)
        - (if int then (2 * a + 2 * b) * n.keys.length else 0) ≤ C) (hw : SWF s) (ready : Bool) :
    ∃ r fs' s' g, pollSetup ready f s = (.ok (r, fs'), s') ∧ Ext s s' ∧ Grown g s s' ∧
      PayPost s s' conf a b fs' n B C (toll a b g ready) r := by
  obtain ⟨cf, rt, nf, nk, itf, it, nky, nch⟩ := f
  have ha := v.addr
  have hcf := v.config
  simp only at ha hcf h1 h2 h3 h4
  subst h1 h2 h3 hcf
  have step : ∀ (k' : Nat) (f' : Frame), k = k' + 1 → f'.root = rt → f'.config = cf → f'.nextKey = none →
      f'.nextChild = none → f'.iter = none →
      ((k' = 4 ∧ f'.nkcFut = false ∧ f'.nkc = none ∧ f'.iterFut = none) ∨
        (k' = 3 ∧ f'.nkcFut = true ∧ f'.nkc = none ∧ f'.iterFut = none) ∨
        (k' = 2 ∧ f'.nkc = some (n.keys.length, n.kids.length) ∧ f'.iterFut = none) ∨
        (k' = 1 ∧ f'.nkc = some (n.keys.length, n.kids.length) ∧ f'.iterFut = some false)) →
      Pay s cf a b [f'] n (B - toll a b 0 ready) (C - toll a b 0 ready) := by
    intro k' f' hk e1 e2 e3 e4 e5 e6
    subst hk
    refine .setup (k := k') (int := int) (v.move e1 e2) e3 e4 e5 e6 h5 ?_ ?_ <;>
      rcases hab with ⟨rfl, rfl⟩ | ⟨rfl, rfl⟩ <;> cases ready <;> cases int <;> simp [toll] at h6 h7 ⊢ <;> omega
  have wait : ∀ (f' : Frame), f' = ⟨cf, rt, nf, nk, itf, none, none, none⟩ → ready = false →
      Pay s cf a b [f'] n (B - toll a b 0 ready) (C - toll a b 0 ready) := by
    rintro _ rfl hr
    have : toll a b 0 ready = 0 := by simp [toll, hr]
    rw [this]
    exact .setup v rfl rfl rfl h4 h5 (by omega) (by omega)
  unfold pollSetup
  rcases h4 with ⟨rfl, p1, p2, p3⟩ | ⟨rfl, p1, p2, p3⟩ | ⟨rfl, p2, p3⟩ | ⟨rfl, p2, p3⟩
  · subst p1 p2 p3
    simp only [if_true]
    exact ⟨_, _, s, 0, rfl, Ext.refl hw, Grown.refl 0 s, step 3 _ rfl rfl rfl rfl rfl rfl (.inr (.inl ⟨rfl, rfl, rfl, rfl⟩))⟩
  · subst p1 p2 p3
    simp only []
    rw [if_neg (by simp)]
    cases ready with
    | false => exact ⟨_, _, s, 0, rfl, Ext.refl hw, Grown.refl 0 s, wait _ rfl rfl⟩
    | true =>
      rw [if_neg (by simp), bind_ok (readNode_some (v.vw.heap ha))]
      refine ⟨_, _, s, 0, rfl, Ext.refl hw, Grown.refl 0 s, step 2 _ rfl rfl rfl rfl rfl rfl (.inr (.inr (.inl ⟨rfl, ?_, rfl⟩)))⟩
      obtain ⟨r, ks, ts⟩ := n
      simp [T.node, T.keys, T.kids]
  · subst p2 p3
    simp only []
    exact ⟨_, _, s, 0, rfl, Ext.refl hw, Grown.refl 0 s, step 1 _ rfl rfl rfl rfl rfl rfl (.inr (.inr (.inr ⟨rfl, rfl, rfl⟩)))⟩
  · subst p2 p3
    simp only []
    cases ready with
    | false => exact ⟨_, _, s, 0, rfl, Ext.refl hw, Grown.refl 0 s, wait _ rfl rfl⟩
    | true =>
      rw [if_neg (by simp)]
      have hn := v.vw.heap ha
      obtain ⟨is, s', m1, e1, hwalk, hm⟩ := makeIter_is hw hn cf hS (ts := n.kids)
        (by cases n; simp [T.node, T.kids]) (by cases n; exact v.vw.len) (by cases n; exact v.vw.srt)
        (by cases n; exact v.vw.srtKeys) (by cases n; exact v.vw.dfdKeys)
      have hlen : n.node.keys.length = n.keys.length ∧ n.node.children.length = n.kids.length ∧ n.node.keys = n.keys := by
        cases n; simp [T.node, T.keys, T.kids]
      have h8 : n.node.keys.length ≤ 8 := by
        obtain ⟨root, hg⟩ := v.good
        exact goodN_keys hg
      have hc := makeIter_cost hn h8 cf n.node.keys.length n.node.children.length
      rw [m1] at hc
      rw [hlen.1, hlen.2.1] at m1
      rw [hlen.2.2] at hwalk
      rw [bind_ok (tryResult_ok m1)]
      have halt : Alt is := by obtain ⟨m, i, rfl⟩ := hm; exact alt_iterOf _ _ _ _ _
      have htr := trail_of_walk v.vw.len (by rw [← T.flat_eq]; exact v.vw.srt) hwalk halt
      refine ⟨_, _, s', 4, rfl, e1, hc, ?_⟩
      refine .iter (int := int) ((v.ext hw e1).move rfl rfl) rfl rfl rfl rfl (by rw [e1.core]; exact htr) ?_ ?_ ?_
      · rw [e1.core]
        intro hi j _ q hq
        exact h5 hi q (piece_flat v.vw.len hq)
      · rcases hab with ⟨rfl, rfl⟩ | ⟨rfl, rfl⟩ <;> cases int <;> simp [toll] at h6 ⊢ <;> omega
      · have hod : int = true → n.keys.length ≤ odds is := fun hi => odds_all hwalk fun x hx =>
          h5 hi x (by rw [T.flat_eq]; exact (keys_sublist _ _).subset hx)
        rcases hab with ⟨rfl, rfl⟩ | ⟨rfl, rfl⟩ <;> cases int <;> simp [toll] at h7 hod ⊢ <;> omega

theorem poll_pay {conf : TraverseConfig} (hS : conf.Sound) {a b : Int} (hab : Weights a b) {s : St} {fs : List Frame}
    {n : T} {B C : Int} (h : Pay s conf a b fs n B C) (hw : SWF s) (ready : Bool) :
    ∃ r fs' s' g, poll ready fs s = (.ok (r, fs'), s') ∧ Ext s s' ∧ Grown g s s' ∧
      PayPost s s' conf a b fs' n B C (toll a b g ready) r := by
  have hwait : toll a b 0 false = 0 := by simp [toll]
  induction h with
  | setup v h1 h2 h3 h4 h5 h6 h7 =>
    unfold poll
    simp only [h1, h2]
    exact pollSetup_pay hS hab v h1 h2 h3 h4 h5 h6 h7 hw ready
  | @iter f h n is x int B C v h1 h2 h3 h4 htr hint hB hC =>
    obtain ⟨cf, rt, nf, nk, itf, it, nky, nch⟩ := f
    have hcf := v.config
    simp only at hcf h1 h2 h3 h4
    subst h1 h2 h3 h4 hcf
    unfold poll
    simp only []
    unfold pollSetup
    obtain ⟨x1, x2⟩ := x
    simp only []
    cases is with
    | nil =>
      refine ⟨_, _, s, 0, rfl, Ext.refl hw, Grown.refl 0 s, ?_, .inl ?_⟩
      · rcases hab with ⟨rfl, rfl⟩ | ⟨rfl, rfl⟩ <;> cases ready <;> cases int <;> simp [toll] at hB ⊢ <;> omega
      · rcases hab with ⟨rfl, rfl⟩ | ⟨rfl, rfl⟩ <;> cases ready <;> cases int <;> simp [toll, odds] at hC ⊢ <;> omega
    | cons j is =>
      have hv := htr.valid j (by simp)
      by_cases hj : j % 2 = 0
      · simp only [hj, if_true]
        rw [if_pos hj] at hv
        have hsh : j >>> 1 = j / 2 := by simp [Nat.shiftRight_succ]
        have ht : n.kids[j / 2]? = some n.kids[j / 2] := List.getElem?_eq_getElem hv
        have ho : odds (j :: is) = odds is := by simp [odds, List.countP_cons, hj]
        rw [ho] at hC
        refine ⟨_, _, s, 0, rfl, Ext.refl hw, Grown.refl 0 s, ?_⟩
        refine .child (i := j / 2) (int := int) (v.move rfl rfl) rfl (by rw [hsh]) rfl rfl ht
          (by rw [show 2 * (j / 2) = j by omega]; exact htr) ?_ ?_ ?_
        · intro hi q hq
          exact hint hi j (by simp) q (by rw [piece, if_pos hj, ht]; exact hq)
        · rcases hab with ⟨rfl, rfl⟩ | ⟨rfl, rfl⟩ <;> cases ready <;> cases int <;> simp [toll] at hB ⊢ <;> omega
        · rcases hab with ⟨rfl, rfl⟩ | ⟨rfl, rfl⟩ <;> cases ready <;> cases int <;> simp [toll] at hC ⊢ <;> omega
      · simp only [hj, if_false]
        have hsh : j >>> 1 = j / 2 := by simp [Nat.shiftRight_succ]
        have ho : odds (j :: is) = odds is + 1 := by simp [odds, List.countP_cons, show j % 2 = 1 by omega]
        rw [ho] at hC
        refine ⟨_, _, s, 0, rfl, Ext.refl hw, Grown.refl 0 s, ?_⟩
        refine .key (i := j / 2) (v.move rfl rfl) (by rw [hsh]) rfl rfl rfl
          (by rw [show 2 * (j / 2) + 1 = j by omega]; exact htr) ?_ ?_
        · rcases hab with ⟨rfl, rfl⟩ | ⟨rfl, rfl⟩ <;> cases ready <;> cases int <;> simp [toll] at hB ⊢ <;> omega
        · rcases hab with ⟨rfl, rfl⟩ | ⟨rfl, rfl⟩ <;> cases ready <;> cases int <;> simp [toll] at hC ⊢ <;> omega
  | @key f h n i is x B C v h1 h2 h3 h4 htr hB hC =>
    obtain ⟨cf, rt, nf, nk, itf, it, nky, nch⟩ := f
    have hcf := v.config
    have ha := v.addr
    simp only at hcf ha h1 h2 h3 h4
    subst h1 h2 h3 h4 hcf
    unfold poll
    simp only []
    rw [if_neg (by simp)]
    cases ready with
    | false =>
      refine ⟨_, _, s, 0, rfl, Ext.refl hw, Grown.refl 0 s, ?_⟩
      simp only [PayPost, hwait, Int.sub_zero]
      exact .key v rfl rfl rfl rfl htr hB hC
    | true =>
      rw [if_neg (by simp)]
      have hv := htr.valid _ (List.mem_cons_self ..)
      rw [if_neg (by omega), show (2 * i + 1) / 2 = i by omega] at hv
      have hn := v.vw.heap ha
      have hkeys : n.node.keys = n.keys := by cases n; rfl
      have hq : n.keys[i]? = some n.keys[i] := List.getElem?_eq_getElem hv
      obtain ⟨bk, hb⟩ := v.vw.dfdKeys n.keys[i] (List.getElem_mem hv)
      obtain ⟨s', h7, e7⟩ := getKeyValue_run hw hn (i := i) (q := n.keys[i]) (by rw [hkeys]; exact hq) hb
      have hg := Costs.getKeyValue rt i s
      rw [h7] at hg
      rw [bind_ok (tryResult_ok h7)]
      simp only []
      have hpc : n.keys[i] ∈ piece n.keys n.kids (2 * i + 1) := by
        rw [piece, if_neg (by omega), show (2 * i + 1) / 2 = i by omega, hq]; simp
      have hok := htr.own _ (by simp) (by omega) _ hpc
      by_cases hin : cf.inBounds (keyOf s.core n.keys[i]) = true
      · rw [if_neg (by rw [hin]; simp)]
        refine ⟨_, _, s', 1, rfl, e7, hg, ?_⟩
        refine .iter (int := true) ((v.ext hw e7).move rfl rfl) rfl rfl rfl rfl (by rw [e7.core]; exact htr.tail) ?_ ?_ ?_
        · rw [e7.core]
          exact fun _ => htr.rest
        · rcases hab with ⟨rfl, rfl⟩ | ⟨rfl, rfl⟩ <;> simp [toll] <;> omega
        · rcases hab with ⟨rfl, rfl⟩ | ⟨rfl, rfl⟩ <;> simp [toll] <;> omega
      · have hin : cf.inBounds (keyOf s.core n.keys[i]) = false := by simpa using hin
        rw [if_pos hin]
        refine ⟨_, _, s', 1, rfl, e7, hg, ?_, .inr ⟨n.keys[i], piece_flat v.vw.len hpc, hok, hin⟩⟩
        rcases hab with ⟨rfl, rfl⟩ | ⟨rfl, rfl⟩ <;> simp [toll] <;> omega
  | @child f h n t i is x int B C v h1 h2 h3 h4 ht htr hint hB hC =>
    obtain ⟨cf, rt, nf, nk, itf, it, nky, nch⟩ := f
    have hcf := v.config
    have ha := v.addr
    simp only at hcf ha h1 h2 h3 h4
    subst h1 h2 h3 h4 hcf
    unfold poll
    simp only []
    cases ready with
    | false =>
      refine ⟨_, _, s, 0, rfl, Ext.refl hw, Grown.refl 0 s, ?_⟩
      simp only [PayPost, hwait, Int.sub_zero]
      exact .child v rfl rfl rfl rfl ht htr hint hB hC
    | true =>
      rw [if_neg (by simp)]
      have hn := v.vw.heap ha
      have hch : n.node.children[i]? = some t.ref := by
        have : n.node.children = n.kids.map T.ref := by cases n; rfl
        rw [this, List.getElem?_map, ht]; rfl
      obtain ⟨h', rfl, vt, gt⟩ := v.kid ht
      obtain ⟨a', s', h7, e7, ha'⟩ := getChild_run hw hn hch vt.rep.node
      have hg := Costs.getChild rt i s
      rw [h7] at hg
      rw [bind_ok (tryResult_ok h7)]
      simp only []
      have hpc : ∀ q ∈ t.flat, q ∈ piece n.keys n.kids (2 * i) := by
        intro q hq
        rw [piece, if_pos (by omega), show 2 * i / 2 = i by omega, ht]
        exact hq
      have h4k : 4 ≤ t.keys.length := by
        obtain ⟨r, ks, ts⟩ := t
        exact (goodN_mk.mp gt).1.2.1 rfl
      refine ⟨_, _, s', 1, rfl, e7, hg, ?_⟩
      refine .sub (Bc := b * 4 + 4 * a + (a + 2 * b) + (6 * a + 8 * b) * h' + (if int then 0 else (6 * a + 8 * b) * h'))
        (Cc := b * 4 + 4 * a + b + (if int then 0 else (6 * a + 8 * b) * h') - (if int then (2 * a + 2 * b) * t.keys.length else 0))
        ((v.ext hw e7).move rfl rfl) rfl rfl rfl rfl (List.mem_of_getElem? ht) (by rw [e7.core]; exact htr.tail)
        (by rw [e7.core]; exact htr.rest) ?_ ?_
        (.setup (f := Frame.new a' cf) (k := 4) (int := int) ⟨vt.ext hw e7, ha', rfl, false, gt⟩ rfl rfl rfl
          (.inl ⟨rfl, rfl, rfl, rfl⟩) (by rw [e7.core]; exact hint) (Int.le_refl _) (Int.le_refl _)) ?_ ?_ ?_
      · rw [e7.core]
        intro q hq j hj y hy
        exact (List.pairwise_cons.mp htr.later).1 j hj q (hpc q hq) y hy
      · intro j hj
        cases is with
        | nil => simp at hj
        | cons j' is =>
          simp only [List.head?_cons, Option.mem_some_iff] at hj
          subst hj
          exact htr.alt.1 (by omega)
      · rcases hab with ⟨rfl, rfl⟩ | ⟨rfl, rfl⟩ <;> cases int <;> simp [toll] at hB ⊢ <;> omega
      · rcases hab with ⟨rfl, rfl⟩ | ⟨rfl, rfl⟩ <;> cases int <;> simp [toll] at hB ⊢ <;> omega
      · rcases hab with ⟨rfl, rfl⟩ | ⟨rfl, rfl⟩ <;> cases int <;> simp [toll] at hC ⊢ <;> omega
  | @sub f c cs h n t is x Bc Cc B C v h1 h2 h3 h4 hm htr hok hlat hhd hs hB1 hB2 hC ih =>
    obtain ⟨r, fs', s', g, p1, e1, hg, p2⟩ := ih
    unfold poll
    simp only [h1, h2]
    rw [bind_ok p1]
    have again : ∀ (δ : Int) (fs2 : List Frame), Pay s' conf a b fs2 t (Bc + δ) (Cc + δ) →
        Pay s' conf a b (f :: fs2) n (B + δ) (C + δ) := by
      intro δ fs2 hp
      cases fs2 with
      | nil => cases hp
      | cons c' cs' =>
        exact .sub (v.ext hw e1) h1 h2 h3 h4 hm (by rw [e1.core]; exact htr) (by rw [e1.core]; exact hok)
          (by rw [e1.core]; exact hlat) hhd hp (by omega) (by omega) (by omega)
    cases r with
    | pending woken waiting =>
      refine ⟨_, _, s', g, rfl, e1, hg, ?_⟩
      exact again (-(toll a b g ready)) fs' p2
    | ready item woken =>
      cases item with
      | some it =>
        refine ⟨_, _, s', g, rfl, e1, hg, ?_⟩
        have := again ((3 * a + 4 * b) - toll a b g ready) fs'
          (by rw [← Int.add_sub_assoc, ← Int.add_sub_assoc]; exact p2)
        rw [← Int.add_sub_assoc, ← Int.add_sub_assoc] at this
        exact this
      | none =>
        obtain ⟨p3, p4⟩ := p2
        refine ⟨_, _, s', g, rfl, e1, hg, ?_⟩
        rcases p4 with p4 | ⟨q, hq, hbq⟩
        · refine .iter (int := true) (v.ext hw e1) h1 h2 h3 h4 (by rw [e1.core]; exact htr)
            (by rw [e1.core]; exact fun _ => hok) ?_ ?_
          · simp only [if_true]; omega
          · simp only [if_true]; omega
        · refine .iterEnd (v.ext hw e1) h1 h2 h3 h4 (by rw [e1.core]; exact htr)
            (by rw [e1.core]; exact ⟨q, kid_flat v.vw.len hm hq, hbq⟩) hhd ?_ (by omega)
          rw [e1.core]
          exact fun j hj y hy => (hlat q hq j hj y hy).beyond hS hbq
  | @iterEnd f h n is x B C v h1 h2 h3 h4 htr hex hhd hall hB =>
    obtain ⟨cf, rt, nf, nk, itf, it, nky, nch⟩ := f
    have hcf := v.config
    simp only at hcf h1 h2 h3 h4
    subst h1 h2 h3 h4 hcf
    unfold poll
    simp only []
    unfold pollSetup
    obtain ⟨x1, x2⟩ := x
    simp only []
    cases is with
    | nil =>
      refine ⟨_, _, s, 0, rfl, Ext.refl hw, Grown.refl 0 s, ?_, .inr hex⟩
      rcases hab with ⟨rfl, rfl⟩ | ⟨rfl, rfl⟩ <;> cases ready <;> simp [toll] <;> omega
    | cons j is =>
      have hj : j % 2 = 1 := hhd j rfl
      have hj0 : ¬ j % 2 = 0 := by omega
      simp only [hj0, if_false]
      have hsh : j >>> 1 = j / 2 := by simp [Nat.shiftRight_succ]
      refine ⟨_, _, s, 0, rfl, Ext.refl hw, Grown.refl 0 s, ?_⟩
      refine .keyEnd (i := j / 2) (v.move rfl rfl) (by rw [hsh]) rfl rfl rfl
        (by rw [show 2 * (j / 2) + 1 = j by omega]; exact htr)
        (by rw [show 2 * (j / 2) + 1 = j by omega]; exact hall j (by simp)) ?_
      rcases hab with ⟨rfl, rfl⟩ | ⟨rfl, rfl⟩ <;> cases ready <;> simp [toll] <;> omega
  | @keyEnd f h n i is x B C v h1 h2 h3 h4 htr hall hB =>
    obtain ⟨cf, rt, nf, nk, itf, it, nky, nch⟩ := f
    have hcf := v.config
    have ha := v.addr
    simp only at hcf ha h1 h2 h3 h4
    subst h1 h2 h3 h4 hcf
    unfold poll
    simp only []
    rw [if_neg (by simp)]
    cases ready with
    | false =>
      refine ⟨_, _, s, 0, rfl, Ext.refl hw, Grown.refl 0 s, ?_⟩
      simp only [PayPost, hwait, Int.sub_zero]
      exact .keyEnd v rfl rfl rfl rfl htr hall hB
    | true =>
      rw [if_neg (by simp)]
      have hv := htr.valid _ (List.mem_cons_self ..)
      rw [if_neg (by omega), show (2 * i + 1) / 2 = i by omega] at hv
      have hn := v.vw.heap ha
      have hkeys : n.node.keys = n.keys := by cases n; rfl
      have hq : n.keys[i]? = some n.keys[i] := List.getElem?_eq_getElem hv
      obtain ⟨bk, hb⟩ := v.vw.dfdKeys n.keys[i] (List.getElem_mem hv)
      obtain ⟨s', h7, e7⟩ := getKeyValue_run hw hn (i := i) (q := n.keys[i]) (by rw [hkeys]; exact hq) hb
      have hg := Costs.getKeyValue rt i s
      rw [h7] at hg
      rw [bind_ok (tryResult_ok h7)]
      simp only []
      have hpc : n.keys[i] ∈ piece n.keys n.kids (2 * i + 1) := by
        rw [piece, if_neg (by omega), show (2 * i + 1) / 2 = i by omega, hq]; simp
      have hby := hall _ hpc
      rw [if_pos hby.2]
      refine ⟨_, _, s', 1, rfl, e7, hg, ?_, .inr ⟨n.keys[i], piece_flat v.vw.len hpc, hby⟩⟩
      rcases hab with ⟨rfl, rfl⟩ | ⟨rfl, rfl⟩ <;> simp [toll] <;> omega

/-- What driving a stream costs. -/
theorem drive_pay {conf : TraverseConfig} (hS : conf.Sound) {a b : Int} (hab : Weights a b) {n : T} :
    ∀ (sched : List Bool) (s : St) (fs : List Frame) (B C : Int), Pay s conf a b fs n B C → SWF s →
    ∃ (xs : List (Except Err KeyValueData)) (fin : Option (List Frame)) (s' : St) (g : Nat),
      drive pure sched fs s = (.ok (xs, fin), s') ∧ Grown g s s' ∧
      a * g + b * (if fin.isSome then (sched.count true : Int) else 0) ≤ B + (3 * a + 4 * b) * xs.length := by
  intro sched
  induction sched with
  | nil =>
    intro s fs B C h hw
    have := h.nonneg hab
    exact ⟨[], some fs, s, 0, rfl, Grown.refl 0 s, by simp; exact this⟩
  | cons r rs ih =>
    intro s fs B C h hw
    obtain ⟨p, fs', s1, g, h1, e1, hg, hp⟩ := poll_pay hS hab h hw r
    unfold drive
    rw [bind_ok h1]
    cases p with
    | pending woken waiting =>
      obtain ⟨xs, fin, s2, g2, h2, hg2, hle⟩ := ih s1 fs' _ _ hp e1.wf
      refine ⟨xs, fin, s2, g + g2, h2, hg.trans hg2, ?_⟩
      rcases hab with ⟨rfl, rfl⟩ | ⟨rfl, rfl⟩ <;> cases r <;> cases fin <;> simp [toll] at hle ⊢ <;> omega
    | ready item woken =>
      cases item with
      | none =>
        refine ⟨[], none, s1, g, rfl, hg, ?_⟩
        have := hp.1
        rcases hab with ⟨rfl, rfl⟩ | ⟨rfl, rfl⟩ <;> cases r <;> simp [toll] at this ⊢ <;> omega
      | some it =>
        obtain ⟨x, ad⟩ := it
        obtain ⟨xs, fin, s2, g2, h2, hg2, hle⟩ := ih s1 fs' _ _ hp e1.wf
        simp only []
        have hpure : (Pure.pure x : M (Except Err KeyValueData)) s1 = (.ok x, s1) := rfl
        rw [bind_ok hpure, bind_ok h2]
        refine ⟨x :: xs, fin, s2, g + g2, rfl, hg.trans hg2, ?_⟩
        rcases hab with ⟨rfl, rfl⟩ | ⟨rfl, rfl⟩ <;> cases r <;> cases fin <;> simp [toll] at hle ⊢ <;> omega

/-- What a traversal costs. -/
theorem collect_pay {s : St} {H : Nat} {t : T} (ht : TreeAt s.core H t) (hw : SWF s) (hc : Coh s (· ∈ t.refs))
    {conf : TraverseConfig} (hS : conf.Sound) {a b : Int} (hab : Weights a b) (sched : List Bool) :
    ∃ (xs : List (Except Err KeyValueData)) (fin : Option (List Frame)) (s' : St) (g : Nat),
      collect sched conf s = (.ok (xs, fin), s') ∧ Grown g s s' ∧
      a * g + b * (if fin.isSome then (sched.count true : Int) else 0)
        ≤ (12 * a + 16 * b) * H + 6 * a + 6 * b + (3 * a + 4 * b) * xs.length := by
  obtain ⟨ad, s1, h1, e1, ha⟩ := getRoot_run ht hw false
  have c1 : Grown 1 s s1 := by
    have : Grown 1 s (getRoot false s).2 := by
      unfold getRoot
      rw [bind_ok (version_run s), if_neg (by have := ht.two; omega)]
      unfold getTreeNode
      exact (Costs.bind (Costs.blocksGet _) fun e => Costs.bind Costs.orPanic fun r => Costs.pure) s
    rwa [h1] at this
  have hp : Pay s1 conf a b [Frame.new ad conf] t
      (b * (4 : Nat) + 4 * a + (a + 2 * b) + (6 * a + 8 * b) * H + (if false then 0 else (6 * a + 8 * b) * H))
      (b * (4 : Nat) + 4 * a + b + (if false then 0 else (6 * a + 8 * b) * H)
        - (if false then (2 * a + 2 * b) * t.keys.length else 0)) :=
    .setup (int := false) ⟨(ht.vw hc).ext hw e1, ha, rfl, true, ht.good⟩ rfl rfl rfl (.inl ⟨rfl, rfl, rfl, rfl⟩)
      (fun h => by cases h) (Int.le_refl _) (Int.le_refl _)
  obtain ⟨xs, fin, s2, g, h2, hg, hle⟩ := drive_pay hS hab sched s1 _ _ _ hp e1.wf
  refine ⟨xs, fin, s2, 1 + g, ?_, c1.trans hg, ?_⟩
  · have ht1 : traverse conf s = (.ok [Frame.new ad conf], s1) := by
      unfold traverse
      rw [bind_ok h1]
      rfl
    unfold collect
    rw [bind_ok ht1]
    exact h2
  · rcases hab with ⟨rfl, rfl⟩ | ⟨rfl, rfl⟩ <;> cases fin <;> simp at hle ⊢ <;> omega

end Hyperbee
