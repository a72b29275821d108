import Verif.Proof.Walk
/-!
# The `Stream` state machine of a traversal
-/

namespace Hyperbee

/-! ## Costs -/

mutual
def T.cost : T → Nat
  | .mk _ ks ts => 5 + 2 * ks.length + costL ts
def costL : List T → Nat
  | [] => 0
  | t :: ts => 2 + t.cost + costL ts
end

def costPiece (ts : List T) (j : Nat) : Nat :=
  if j % 2 = 0 then (ts[j / 2]?.map fun t => 2 + t.cost).getD 0 else 2

def costIdx (ts : List T) (is : List Nat) : Nat := (is.map (costPiece ts)).sum

theorem costPiece_shift (t : T) (ts : List T) (j : Nat) : costPiece (t :: ts) (j + 2) = costPiece ts j := by
  have h1 : (j + 2) % 2 = j % 2 := by omega
  have h2 : (j + 2) / 2 = j / 2 + 1 := by omega
  simp [costPiece, h1, h2]

theorem costPiece_shift_nil (j : Nat) : costPiece [] (j + 2) = costPiece [] j := by
  have h1 : (j + 2) % 2 = j % 2 := by omega
  simp [costPiece, h1]

theorem costIdx_all : ∀ (n : Nat) (ts : List T), (ts = [] ∨ ts.length = n + 1) →
    costIdx ts (List.range (2 * n + 1)) = 2 * n + costL ts := by
  intro n
  induction n with
  | zero =>
    rintro ts (h | h)
    · subst h; simp [costIdx, costPiece, costL]
    · obtain ⟨t, rfl⟩ : ∃ t, ts = [t] := List.length_eq_one_iff.mp (by simpa using h)
      simp [costIdx, costPiece, costL]
  | succ n ih =>
    rintro ts (h | h)
    · subst h
      have := ih [] (.inl rfl)
      unfold costIdx at this ⊢
      rw [range_two]
      simp only [List.map_cons, List.map_map, List.sum_cons, Function.comp_def, costPiece_shift_nil, this]
      simp [costPiece, costL]
      omega
    · cases ts with
      | nil => simp at h
      | cons t ts =>
        have := ih ts (.inr (by simpa using h))
        unfold costIdx at this ⊢
        rw [range_two]
        simp only [List.map_cons, List.map_map, List.sum_cons, Function.comp_def, costPiece_shift, this]
        simp [costPiece, costL]
        omega

theorem sum_sublist {l l' : List Nat} (h : l.Sublist l') : l.sum ≤ l'.sum := by
  induction h with
  | slnil => simp
  | cons _ _ ih => simp only [List.sum_cons]; omega
  | cons_cons _ _ ih => simp only [List.sum_cons]; omega

theorem costIdx_le {p : Nat → Bool} {st : Nat → Prop} {rev : Bool} {ks : List Nat} {ts is : List _}
    (hl : ts = [] ∨ ts.length = ks.length + 1) (h : WalkOK p st rev ks ts is) :
    costIdx ts is ≤ 2 * ks.length + costL ts := by
  rw [← costIdx_all _ _ hl]
  have := sum_sublist (h.sub.map (costPiece ts))
  cases rev with
  | false => exact this
  | true =>
    have e : ((dirFlat true is).map (costPiece ts)).sum = costIdx ts is := by
      simp [dirFlat, costIdx, List.sum_reverse]
    rw [e] at this
    exact this

/-- A node and its subtree, as it is in the core and (coherently) in memory. -/
structure Vw (s : St) (h : Nat) (n : T) : Prop where
  rep : Rep (nodeAt s.core) n
  coh : Coh s (· ∈ n.refs)
  shape : Shape h n
  srt : Srt s.core n.flat
  dfd : ∀ q ∈ n.flat, ∃ b, blockAt s.core q = some b

theorem Vw.ext {s s' : St} {h : Nat} {n : T} (v : Vw s h n) (hw : SWF s) (e : Ext s s') : Vw s' h n :=
  ⟨by rw [e.core]; exact v.rep, e.coh hw v.coh, v.shape, by rw [e.core]; exact v.srt,
    by rw [e.core]; exact v.dfd⟩

theorem TreeAt.vw {s : St} {H : Nat} {t : T} (ht : TreeAt s.core H t) (hc : Coh s (· ∈ t.refs)) : Vw s H t :=
  ⟨ht.rep, hc, ht.good.shape, ht.srt, ht.dfd⟩

/-- What is left of the index iterator, the next index first. -/
structure Rest (p : Nat → Bool) (ks : List Nat) (ts : List T) (is : List Nat) : Prop where
  cut : is.Pairwise fun j j' => j % 2 = 1 → ∀ k ∈ piece ks ts j, p k = false →
    ∀ x ∈ piece ks ts j', p x = false
  valid : ∀ j ∈ is, if j % 2 = 0 then j / 2 < ts.length else j / 2 < ks.length

theorem Rest.tail {p : Nat → Bool} {ks : List Nat} {ts : List T} {i : Nat} {is : List Nat}
    (h : Rest p ks ts (i :: is)) : Rest p ks ts is :=
  ⟨(List.pairwise_cons.mp h.cut).2, fun j hj => h.valid j (List.mem_cons_of_mem _ hj)⟩

/-- The keys a stream will still yield (`out`) and a bound on the polls it needs for them (`fuel`). -/
inductive Strm (s : St) (conf : TraverseConfig) : List Frame → T → List Nat → Nat → Prop where
  | setup {f : Frame} {h : Nat} {n : T} {k : Nat} : Vw s h n → addrOf s n.ref = some f.root →
      f.config = conf → f.nextKey = none → f.nextChild = none → f.iter = none →
      ((k = 3 ∧ f.nkcFut = false ∧ f.nkc = none ∧ f.iterFut = none) ∨
        (k = 2 ∧ f.nkcFut = true ∧ f.nkc = none ∧ f.iterFut = none) ∨
        (k = 1 ∧ f.nkc = some (n.keys.length, n.kids.length) ∧ f.iterFut = none) ∨
        (k = 0 ∧ f.nkc = some (n.keys.length, n.kids.length) ∧ f.iterFut = some false)) →
      Strm s conf [f] n ((dirFlat conf.reversed n.flat).filter fun q => conf.inBounds (keyOf s.core q))
        (k + (2 + 2 * n.keys.length + costL n.kids))
  | iter {f : Frame} {h : Nat} {n : T} {is : List Nat} {x : Nat × Nat} : Vw s h n →
      addrOf s n.ref = some f.root → f.config = conf → f.nextKey = none → f.nextChild = none →
      f.nkc = some x → f.iter = some is →
      Rest (fun q => conf.inBounds (keyOf s.core q)) n.keys n.kids is →
      Strm s conf [f] n ((flatIdx conf.reversed n.keys n.kids is).filter fun q => conf.inBounds (keyOf s.core q))
        (1 + costIdx n.kids is)
  | key {f : Frame} {h : Nat} {n : T} {i : Nat} {is : List Nat} {x : Nat × Nat} : Vw s h n →
      addrOf s n.ref = some f.root → f.config = conf → f.nextKey = some (i, false) → f.nextChild = none →
      f.nkc = some x → f.iter = some is →
      Rest (fun q => conf.inBounds (keyOf s.core q)) n.keys n.kids ((2 * i + 1) :: is) →
      Strm s conf [f] n ((flatIdx conf.reversed n.keys n.kids ((2 * i + 1) :: is)).filter
          fun q => conf.inBounds (keyOf s.core q))
        (2 + costIdx n.kids is)
  | child {f : Frame} {h : Nat} {n t : T} {i : Nat} {is : List Nat} {x : Nat × Nat} : Vw s h n →
      addrOf s n.ref = some f.root → f.config = conf → f.nextKey = none → f.nextChild = some i →
      f.nkc = some x → f.iter = some is → n.kids[i]? = some t →
      Rest (fun q => conf.inBounds (keyOf s.core q)) n.keys n.kids is →
      Strm s conf [f] n ((flatIdx conf.reversed n.keys n.kids ((2 * i) :: is)).filter
          fun q => conf.inBounds (keyOf s.core q))
        (2 + t.cost + costIdx n.kids is)
  | sub {f c : Frame} {cs : List Frame} {h : Nat} {n t : T} {is out : List Nat} {x : Nat × Nat} {fuel : Nat} :
      Vw s h n → addrOf s n.ref = some f.root → f.config = conf → f.nextKey = none → f.nextChild = none →
      f.nkc = some x → f.iter = some is → t ∈ n.kids →
      Rest (fun q => conf.inBounds (keyOf s.core q)) n.keys n.kids is → Strm s conf (c :: cs) t out fuel →
      Strm s conf (f :: c :: cs) n (out ++ (flatIdx conf.reversed n.keys n.kids is).filter
          fun q => conf.inBounds (keyOf s.core q))
        (fuel + (1 + costIdx n.kids is))

theorem Strm.ext {s s' : St} {conf : TraverseConfig} {fs : List Frame} {n : T} {out : List Nat} {fuel : Nat}
    (h : Strm s conf fs n out fuel) (hw : SWF s) (e : Ext s s') : Strm s' conf fs n out fuel := by
  induction h with
  | setup v a h1 h2 h3 h4 h5 =>
    have := Strm.setup (conf := conf) (v.ext hw e) (e.addr a) h1 h2 h3 h4 h5
    rw [e.core] at this; exact this
  | iter v a h1 h2 h3 h4 h5 h6 =>
    have := Strm.iter (conf := conf) (v.ext hw e) (e.addr a) h1 h2 h3 h4 h5 (by rw [e.core]; exact h6)
    rw [e.core] at this; exact this
  | key v a h1 h2 h3 h4 h5 h6 =>
    have := Strm.key (conf := conf) (v.ext hw e) (e.addr a) h1 h2 h3 h4 h5 (by rw [e.core]; exact h6)
    rw [e.core] at this; exact this
  | child v a h1 h2 h3 h4 h5 ht h6 =>
    have := Strm.child (conf := conf) (v.ext hw e) (e.addr a) h1 h2 h3 h4 h5 ht (by rw [e.core]; exact h6)
    rw [e.core] at this; exact this
  | sub v a h1 h2 h3 h4 h5 hm h6 _ ih =>
    have := Strm.sub (conf := conf) (v.ext hw e) (e.addr a) h1 h2 h3 h4 h5 hm (by rw [e.core]; exact h6) ih
    rw [e.core] at this; exact this

theorem Strm.pos {s : St} {conf : TraverseConfig} {fs : List Frame} {n : T} {out : List Nat} {fuel : Nat}
    (h : Strm s conf fs n out fuel) : 0 < fuel := by
  cases h <;> omega

/-- `m` is the tree `d` levels below the top of `n`. -/
inductive Under : Nat → T → T → Prop where
  | top {n : T} : Under 0 n n
  | kid {d : Nat} {m t n : T} : t ∈ n.kids → Under d m t → Under (d + 1) m n

/-- Node `a` in memory is the one, `d` levels below the top of `n`, that has key `q`. -/
def Owns (s : St) (n : T) (q : Nat) (a : Addr) : Prop :=
  ∃ d m h, Under d m n ∧ q ∈ m.keys ∧ addrOf s m.ref = some a ∧ Vw s h m

/-- What one poll may do. -/
def PollPost (s s' : St) (conf : TraverseConfig) (ready : Bool) (fs fs' : List Frame) (n : T)
    (out : List Nat) (fuel : Nat) : PollR → Prop
  | .pending woken waiting => (woken = true ∨ waiting = true) ∧
      if waiting = true then ready = false ∧ fs' = fs ∧ s' = s
      else ∃ fuel', fuel' < fuel ∧ Strm s' conf fs' n out fuel'
  | .ready none woken => woken = true ∧ out = []
  | .ready (some (x, a)) _ => ∃ q out' fuel', x = .ok ⟨q, keyOf s.core q, valOf s.core q⟩ ∧ out = q :: out' ∧
      fuel' < fuel ∧ Strm s' conf fs' n out' fuel' ∧ Owns s' n q a

theorem tryResult_ok {m : M α} {s s' : St} {a : α} (h : m s = (.ok a, s')) :
    tryResult m s = (.ok (.ok a), s') := by
  unfold tryResult; rw [h]

theorem Vw.heap {s : St} {h : Nat} {n : T} (v : Vw s h n) {a : Nat} (ha : addrOf s n.ref = some a) :
    s.heap[a]? = some n.node := by
  rw [v.coh n.ref (by cases n; simp [T.refs, T.ref]) a ha]
  exact v.rep.node

theorem Vw.len {s : St} {h : Nat} {n : T} (v : Vw s h n) : n.kids = [] ∨ n.kids.length = n.keys.length + 1 := by
  obtain ⟨r, ks, ts⟩ := n
  have := v.shape
  cases h with
  | zero => exact .inl this
  | succ h => exact .inr this.1

theorem T.flat_eq (n : T) : n.flat = flatL n.keys n.kids := by
  obtain ⟨r, ks, ts⟩ := n
  rfl

theorem Vw.kid {s : St} {h : Nat} {n t : T} (v : Vw s h n) {i : Nat} (ht : n.kids[i]? = some t) :
    ∃ h', Vw s h' t := by
  have hm : t ∈ n.kids := List.mem_of_getElem? ht
  have hl := v.len
  have hfl : ∀ q ∈ t.flat, q ∈ n.flat := by
    intro q hq
    rw [T.flat_eq, ← flat_pieces _ _ hl]
    have hlt := (List.getElem?_eq_some_iff.mp ht).1
    refine List.mem_flatMap.mpr ⟨2 * i, ?_, ?_⟩
    · rw [List.mem_range]
      rcases hl with hl | hl
      · simp [hl] at hlt
      · omega
    · rw [piece, if_pos (by omega), show 2 * i / 2 = i by omega, ht]
      exact hq
  have hsub : Srt s.core t.flat := by
    have hs := v.srt
    unfold Srt at hs ⊢
    rw [T.flat_eq, ← flat_pieces _ _ hl, List.pairwise_flatMap] at hs
    have hlt := (List.getElem?_eq_some_iff.mp ht).1
    have := hs.1 (2 * i) (by
      rw [List.mem_range]
      rcases hl with hl | hl
      · simp [hl] at hlt
      · omega)
    rw [piece, if_pos (by omega), show 2 * i / 2 = i by omega, ht] at this
    exact this
  have hsh : ∃ h', Shape h' t := by
    obtain ⟨r, ks, ts⟩ := n
    have := v.shape
    cases h with
    | zero => simp only [Shape] at this; subst this; simp [T.kids] at hm
    | succ h => exact ⟨h, this.2 t hm⟩
  obtain ⟨h', hsh⟩ := hsh
  refine ⟨h', v.rep.kids t hm, v.coh.mono ?_, hsh, hsub, fun q hq => v.dfd q (hfl q hq)⟩
  intro r hr
  obtain ⟨r0, ks, ts⟩ := n
  simp only [T.refs]
  refine List.mem_cons_of_mem _ ?_
  exact mem_refsL.mpr ⟨t, hm, hr⟩

theorem Vw.srtKeys {s : St} {h : Nat} {n : T} (v : Vw s h n) : Srt s.core n.keys := by
  refine List.Pairwise.sublist ?_ v.srt
  rw [T.flat_eq]
  exact keys_sublist _ _

theorem Vw.dfdKeys {s : St} {h : Nat} {n : T} (v : Vw s h n) : ∀ q ∈ n.keys, ∃ b, blockAt s.core q = some b := by
  intro q hq
  refine v.dfd q ?_
  rw [T.flat_eq]
  exact (keys_sublist _ _).subset hq

theorem pollSetup_run {s : St} (hw : SWF s) {conf : TraverseConfig} (hS : conf.Sound) {f : Frame} {h : Nat} {n : T}
    {k : Nat} (v : Vw s h n) (ha : addrOf s n.ref = some f.root) (hconf : f.config = conf)
    (hk : f.nextKey = none) (hc : f.nextChild = none) (hi : f.iter = none)
    (hp : (k = 3 ∧ f.nkcFut = false ∧ f.nkc = none ∧ f.iterFut = none) ∨
        (k = 2 ∧ f.nkcFut = true ∧ f.nkc = none ∧ f.iterFut = none) ∨
        (k = 1 ∧ f.nkc = some (n.keys.length, n.kids.length) ∧ f.iterFut = none) ∨
        (k = 0 ∧ f.nkc = some (n.keys.length, n.kids.length) ∧ f.iterFut = some false)) (ready : Bool) :
    ∃ r fs' s', pollSetup ready f s = (.ok (r, fs'), s') ∧ Ext s s' ∧
      PollPost s s' conf ready [f] fs' n
        ((dirFlat conf.reversed n.flat).filter fun q => conf.inBounds (keyOf s.core q))
        (k + (2 + 2 * n.keys.length + costL n.kids)) r := by
  obtain ⟨cf, rt, nf, nk, itf, it, nky, nch⟩ := f
  simp only at ha hconf hk hc hi hp
  subst hconf hk hc hi
  unfold pollSetup
  rcases hp with ⟨rfl, p1, p2, p3⟩ | ⟨rfl, p1, p2, p3⟩ | ⟨rfl, p2, p3⟩ | ⟨rfl, p2, p3⟩
  · subst p1 p2 p3
    simp only [if_true]
    refine ⟨_, _, s, rfl, Ext.refl hw, .inl rfl, ?_⟩
    rw [if_neg (by simp)]
    exact ⟨2 + (2 + 2 * n.keys.length + costL n.kids), by omega,
      .setup v ha rfl rfl rfl rfl (.inr (.inl ⟨rfl, rfl, rfl, rfl⟩))⟩
  · subst p1 p2 p3
    simp only []
    rw [if_neg (by simp)]
    cases ready with
    | false =>
      refine ⟨_, _, s, rfl, Ext.refl hw, .inl rfl, ?_⟩
      rw [if_pos rfl]
      exact ⟨rfl, rfl, rfl⟩
    | true =>
      rw [if_neg (by simp), bind_ok (readNode_some (v.heap ha))]
      refine ⟨_, _, s, rfl, Ext.refl hw, .inl rfl, ?_⟩
      rw [if_neg (by simp)]
      refine ⟨1 + (2 + 2 * n.keys.length + costL n.kids), by omega,
        .setup v ha rfl rfl rfl rfl (.inr (.inr (.inl ⟨rfl, ?_, rfl⟩)))⟩
      obtain ⟨r, ks, ts⟩ := n
      simp [T.node, T.keys, T.kids]
  · subst p2 p3
    simp only []
    refine ⟨_, _, s, rfl, Ext.refl hw, .inl rfl, ?_⟩
    rw [if_neg (by simp)]
    exact ⟨0 + (2 + 2 * n.keys.length + costL n.kids), by omega,
      .setup v ha rfl rfl rfl rfl (.inr (.inr (.inr ⟨rfl, rfl, rfl⟩)))⟩
  · subst p2 p3
    simp only []
    cases ready with
    | false =>
      refine ⟨_, _, s, rfl, Ext.refl hw, .inl rfl, ?_⟩
      rw [if_pos rfl]
      exact ⟨rfl, rfl, rfl⟩
    | true =>
      rw [if_neg (by simp)]
      have hn := v.heap ha
      obtain ⟨is, s', h1, e1, hwalk⟩ := makeIter_run hw hn cf hS (ts := n.kids)
        (by cases n; simp [T.node, T.kids]) (by cases n; exact v.len) (by cases n; exact v.srt)
        (by cases n; exact v.srtKeys) (by cases n; exact v.dfdKeys)
      have hlen : n.node.keys.length = n.keys.length ∧ n.node.children.length = n.kids.length ∧ n.node.keys = n.keys := by
        cases n; simp [T.node, T.keys, T.kids]
      rw [hlen.1, hlen.2.1] at h1
      rw [hlen.2.2] at hwalk
      rw [bind_ok (tryResult_ok h1)]
      refine ⟨_, _, s', rfl, e1, .inl rfl, ?_⟩
      rw [if_neg (by simp)]
      have hrest : Rest (fun q => cf.inBounds (keyOf s.core q)) n.keys n.kids is := ⟨hwalk.cut, hwalk.valid⟩
      have := costIdx_le v.len hwalk
      refine ⟨1 + costIdx n.kids is, by omega, ?_⟩
      have hst := Strm.iter (s := s') (conf := cf) (f := ⟨cf, rt, nf, some (n.keys.length, n.kids.length), some true, some is, none, none⟩)
        (v.ext hw e1) (e1.addr ha) rfl rfl rfl rfl rfl (by rw [e1.core]; exact hrest)
      rw [e1.core, hwalk.filt, ← T.flat_eq] at hst
      exact hst

theorem poll_run {conf : TraverseConfig} (hS : conf.Sound) {s : St} {fs : List Frame} {n : T}
    {out : List Nat} {fuel : Nat} (h : Strm s conf fs n out fuel) (hw : SWF s) (ready : Bool) :
    ∃ r fs' s', poll ready fs s = (.ok (r, fs'), s') ∧ Ext s s' ∧ PollPost s s' conf ready fs fs' n out fuel r := by
  induction h with
  | setup v ha h1 h2 h3 h4 h5 =>
    unfold poll
    simp only [h2, h3]
    exact pollSetup_run hw hS v ha h1 h2 h3 h4 h5 ready
  | @iter f h n is x v ha h1 h2 h3 h4 h5 h6 =>
    obtain ⟨cf, rt, nf, nk, itf, it, nky, nch⟩ := f
    simp only at ha h1 h2 h3 h4 h5
    subst h1 h2 h3 h4 h5
    unfold poll
    simp only []
    unfold pollSetup
    obtain ⟨x1, x2⟩ := x
    simp only []
    cases is with
    | nil => exact ⟨_, _, s, rfl, Ext.refl hw, rfl, by simp [flatIdx]⟩
    | cons j is =>
      have hv := h6.valid j (by simp)
      by_cases hj : j % 2 = 0
      · simp only [hj, if_true]
        refine ⟨_, _, s, rfl, Ext.refl hw, .inl rfl, ?_⟩
        rw [if_neg (by simp)]
        rw [if_pos hj] at hv
        have hsh : j >>> 1 = j / 2 := by simp [Nat.shiftRight_succ]
        have ht : n.kids[j / 2]? = some n.kids[j / 2] := List.getElem?_eq_getElem hv
        have hst := Strm.child (s := s) (conf := cf)
          (f := ⟨cf, rt, nf, some (x1, x2), itf, some is, none, some (j >>> 1)⟩) (i := j / 2)
          v ha rfl rfl (by rw [hsh]) rfl rfl ht h6.tail
        rw [show 2 * (j / 2) = j by omega] at hst
        refine ⟨_, ?_, hst⟩
        simp only [costIdx, List.map_cons, List.sum_cons, costPiece, hj, if_true, ht]
        simp only [Option.map_some, Option.getD_some]
        omega
      · simp only [hj, if_false]
        refine ⟨_, _, s, rfl, Ext.refl hw, .inl rfl, ?_⟩
        rw [if_neg (by simp)]
        have hsh : j >>> 1 = j / 2 := by simp [Nat.shiftRight_succ]
        have e : 2 * (j / 2) + 1 = j := by omega
        have hst := Strm.key (s := s) (conf := cf)
          (f := ⟨cf, rt, nf, some (x1, x2), itf, some is, some (j >>> 1, false), none⟩) (i := j / 2)
          v ha rfl (by rw [hsh]) rfl rfl rfl (by rw [e]; exact h6)
        rw [e] at hst
        refine ⟨_, ?_, hst⟩
        simp only [costIdx, List.map_cons, List.sum_cons, costPiece, hj, if_false]
        omega
  | @key f h n i is x v ha h1 h2 h3 h4 h5 h6 =>
    obtain ⟨cf, rt, nf, nk, itf, it, nky, nch⟩ := f
    simp only at ha h1 h2 h3 h4 h5
    subst h1 h2 h3 h4 h5
    unfold poll
    simp only []
    rw [if_neg (by simp)]
    cases ready with
    | false =>
      refine ⟨_, _, s, rfl, Ext.refl hw, .inr rfl, ?_⟩
      rw [if_pos rfl]
      exact ⟨rfl, rfl, rfl⟩
    | true =>
      rw [if_neg (by simp)]
      have hv := h6.valid _ (List.mem_cons_self ..)
      rw [if_neg (by omega), show (2 * i + 1) / 2 = i by omega] at hv
      have hn := v.heap ha
      have hkeys : n.node.keys = n.keys := by cases n; rfl
      have hq : n.keys[i]? = some n.keys[i] := List.getElem?_eq_getElem hv
      obtain ⟨b, hb⟩ := v.dfdKeys n.keys[i] (List.getElem_mem hv)
      obtain ⟨s', h7, e7⟩ := getKeyValue_run hw hn (i := i) (q := n.keys[i]) (by rw [hkeys]; exact hq) hb
      rw [bind_ok (tryResult_ok h7)]
      simp only []
      have hpc : piece n.keys n.kids (2 * i + 1) = [n.keys[i]] := by
        rw [piece, if_neg (by omega), show (2 * i + 1) / 2 = i by omega, hq]; rfl
      have hpd : flatIdx cf.reversed n.keys n.kids ((2 * i + 1) :: is)
          = n.keys[i] :: flatIdx cf.reversed n.keys n.kids is := by
        simp only [flatIdx, List.flatMap_cons, pieceD, hpc]
        cases cf.reversed <;> simp
      by_cases hin : cf.inBounds (keyOf s.core n.keys[i]) = true
      · rw [if_neg (by rw [hin]; simp)]
        refine ⟨_, _, s', rfl, e7, ?_⟩
        have hst := Strm.iter (s := s') (conf := cf) (f := ⟨cf, rt, nf, some x, itf, some is, none, none⟩)
          (v.ext hw e7) (e7.addr ha) rfl rfl rfl rfl rfl (by rw [e7.core]; exact h6.tail)
        rw [e7.core] at hst
        refine ⟨n.keys[i], _, _, rfl, ?_, ?_, hst, 0, n, h, .top, List.getElem_mem hv, e7.addr ha, v.ext hw e7⟩
        · rw [hpd, List.filter_cons_of_pos (by exact hin)]
        · omega
      · have hin : cf.inBounds (keyOf s.core n.keys[i]) = false := by simpa using hin
        rw [if_pos hin]
        refine ⟨_, _, s', rfl, e7, rfl, ?_⟩
        rw [hpd]
        refine filter_none ?_
        intro y hy
        rcases List.mem_cons.mp hy with rfl | hy
        · exact hin
        · obtain ⟨j', hj', hy⟩ := List.mem_flatMap.mp hy
          have hy : y ∈ piece n.keys n.kids j' := by
            unfold pieceD at hy; split at hy
            · exact List.mem_reverse.mp hy
            · exact hy
          exact (List.pairwise_cons.mp h6.cut).1 j' hj' (by omega) n.keys[i] (by rw [hpc]; simp) hin y hy
  | @child f h n t i is x v ha h1 h2 h3 h4 h5 ht h6 =>
    obtain ⟨cf, rt, nf, nk, itf, it, nky, nch⟩ := f
    simp only at ha h1 h2 h3 h4 h5
    subst h1 h2 h3 h4 h5
    unfold poll
    simp only []
    cases ready with
    | false =>
      refine ⟨_, _, s, rfl, Ext.refl hw, .inl rfl, ?_⟩
      rw [if_pos rfl]
      exact ⟨rfl, rfl, rfl⟩
    | true =>
      rw [if_neg (by simp)]
      have hn := v.heap ha
      have hch : n.node.children[i]? = some t.ref := by
        have : n.node.children = n.kids.map T.ref := by cases n; rfl
        rw [this, List.getElem?_map, ht]; rfl
      obtain ⟨h', vt⟩ := v.kid ht
      obtain ⟨a', s', h7, e7, ha'⟩ := getChild_run hw hn hch vt.rep.node
      rw [bind_ok (tryResult_ok h7)]
      simp only []
      refine ⟨_, _, s', rfl, e7, .inl rfl, ?_⟩
      rw [if_neg (by simp)]
      have hc := Strm.setup (s := s') (conf := cf) (f := Frame.new a' cf) (k := 3) (vt.ext hw e7) ha' rfl rfl rfl rfl
        (.inl ⟨rfl, rfl, rfl, rfl⟩)
      have hst := Strm.sub (s := s') (conf := cf) (f := ⟨cf, rt, nf, some x, itf, some is, none, none⟩)
        (v.ext hw e7) (e7.addr ha) rfl rfl rfl rfl rfl (List.mem_of_getElem? ht) (by rw [e7.core]; exact h6) hc
      rw [e7.core] at hst
      have hout : (flatIdx cf.reversed n.keys n.kids ((2 * i) :: is))
          = dirFlat cf.reversed t.flat ++ flatIdx cf.reversed n.keys n.kids is := by
        simp only [flatIdx, List.flatMap_cons, pieceD, piece, if_pos (show 2 * i % 2 = 0 by omega),
          show 2 * i / 2 = i by omega, ht]
        rfl
      rw [hout, List.filter_append]
      refine ⟨_, ?_, hst⟩
      have : t.cost = 5 + 2 * t.keys.length + costL t.kids := by cases t; rfl
      omega
  | @sub f c cs h n t is out x fuel v ha h1 h2 h3 h4 h5 hm h6 hs ih =>
    obtain ⟨r, fs', s', p1, e1, p2⟩ := ih
    unfold poll
    simp only [h2, h3]
    rw [bind_ok p1]
    have hv' := v.ext hw e1
    have ha' := e1.addr ha
    cases r with
    | pending woken waiting =>
      refine ⟨_, _, s', rfl, e1, p2.1, ?_⟩
      have p3 := p2.2
      cases waiting with
      | true =>
        rw [if_pos rfl] at p3 ⊢
        exact ⟨p3.1, by rw [p3.2.1], p3.2.2⟩
      | false =>
        rw [if_neg (by simp)] at p3 ⊢
        obtain ⟨fuel', hlt, hst⟩ := p3
        cases fs' with
        | nil => cases hst
        | cons c' cs' =>
          have := Strm.sub (s := s') (conf := conf) (f := f) hv' ha' h1 h2 h3 h4 h5 hm (by rw [e1.core]; exact h6) hst
          rw [e1.core] at this
          exact ⟨_, by omega, this⟩
    | ready item woken =>
      cases item with
      | none =>
        obtain ⟨pw, po⟩ := p2
        subst pw po
        refine ⟨_, _, s', rfl, e1, .inl rfl, ?_⟩
        rw [if_neg (by simp)]
        have := Strm.iter (s := s') (conf := conf) (f := f) hv' ha' h1 h2 h3 h4 h5 (by rw [e1.core]; exact h6)
        rw [e1.core] at this
        have hp := hs.pos
        exact ⟨_, by omega, this⟩
      | some it =>
        obtain ⟨it1, it2⟩ := it
        obtain ⟨q, out', fuel', hx, ho, hlt, hst, d, m, hh, hu, hq, hma, hvm⟩ := p2
        refine ⟨_, _, s', rfl, e1, q, out' ++ _, ?_, hx, by rw [ho]; rfl, ?_⟩
        · exact fuel' + (1 + costIdx n.kids is)
        · refine ⟨by omega, ?_, d + 1, m, hh, .kid hm hu, hq, hma, hvm⟩
          cases fs' with
          | nil => cases hst
          | cons c' cs' =>
            have := Strm.sub (s := s') (conf := conf) (f := f) hv' ha' h1 h2 h3 h4 h5 hm (by rw [e1.core]; exact h6) hst
            rw [e1.core] at this
            exact this

/-! ## Driving the stream -/

/-- The entry stored in block `q`. -/
def kvOf (c : List Bytes) (q : Nat) : KeyValueData := ⟨q, keyOf c q, valOf c q⟩

theorem drive_run {β : Type} {post : Except Err KeyValueData → M β} {g : Nat → β} {c : List Bytes}
    {conf : TraverseConfig} (hS : conf.Sound) {n : T} : ∀ (sched : List Bool) (s : St) (fs : List Frame)
    (out : List Nat) (fuel : Nat), s.core = c → Strm s conf fs n out fuel → SWF s →
    (∀ q ∈ out, ∀ s', post (.ok (kvOf c q)) s' = (.ok (g q), s')) →
    ∃ xs rest fin s', drive post sched fs s = (.ok (xs.map g, fin), s') ∧ Ext s s' ∧ out = xs ++ rest ∧
      (match fin with
        | none => rest = []
        | some fs' => ∃ fuel', Strm s' conf fs' n rest fuel' ∧ fuel' + sched.count true ≤ fuel) := by
  intro sched
  induction sched with
  | nil =>
    intro s fs out fuel _ h hw _
    exact ⟨[], out, some fs, s, rfl, Ext.refl hw, rfl, fuel, h, by simp⟩
  | cons r rs ih =>
    intro s fs out fuel hcore h hw hpost
    obtain ⟨p, fs', s1, h1, e1, hp⟩ := poll_run hS h hw r
    unfold drive
    rw [bind_ok h1]
    have hcore1 : s1.core = c := by rw [e1.core, hcore]
    cases p with
    | pending woken waiting =>
      obtain ⟨_, hp⟩ := hp
      have key : ∃ fuel', Strm s1 conf fs' n out fuel' ∧ (if r then 1 else 0) + fuel' ≤ fuel := by
        cases waiting with
        | true =>
          rw [if_pos rfl] at hp
          obtain ⟨rfl, rfl, rfl⟩ := hp
          exact ⟨fuel, h, by simp⟩
        | false =>
          rw [if_neg (by simp)] at hp
          obtain ⟨f', hlt, hst⟩ := hp
          exact ⟨f', hst, by split <;> omega⟩
      obtain ⟨f', hst, hle⟩ := key
      obtain ⟨xs, rest, fin, s2, h2, e2, ho, hfin⟩ := ih s1 fs' out f' hcore1 hst e1.wf hpost
      refine ⟨xs, rest, fin, s2, h2, e1.trans e2, ho, ?_⟩
      cases fin with
      | none => exact hfin
      | some fs2 =>
        obtain ⟨f2, h3, h4⟩ := hfin
        refine ⟨f2, h3, ?_⟩
        cases r <;> simp at hle ⊢ <;> omega
    | ready item woken =>
      cases item with
      | none => exact ⟨[], out, none, s1, rfl, e1, rfl, hp.2⟩
      | some it =>
        obtain ⟨x, a⟩ := it
        obtain ⟨q, out', f', rfl, rfl, hlt, hst, _⟩ := hp
        have hpq := hpost q (by simp) s1
        rw [hcore]
        simp only [kvOf] at hpq
        simp only []
        rw [bind_ok hpq]
        obtain ⟨xs, rest, fin, s2, h2, e2, ho, hfin⟩ := ih s1 fs' out' f' hcore1 hst e1.wf
          (fun q hq => hpost q (List.mem_cons_of_mem _ hq))
        rw [bind_ok h2]
        refine ⟨q :: xs, rest, fin, s2, rfl, e1.trans e2, by rw [ho]; rfl, ?_⟩
        cases fin with
        | none => exact hfin
        | some fs2 =>
          obtain ⟨f2, h3, h4⟩ := hfin
          refine ⟨f2, h3, ?_⟩
          cases r <;> simp <;> omega

theorem costL_le {h : Nat} {ts : List T}
    (H : ∀ t ∈ ts, 2 + t.cost ≤ 4 * t.flat.length) (ks : List Nat) (hl : ts.length = ks.length + 1) :
    costL ts + 4 * ks.length ≤ 4 * (flatL ks ts).length := by
  induction ts generalizing ks with
  | nil => simp at hl
  | cons t ts ih =>
    have h1 := H t (by simp)
    cases ks with
    | nil =>
      obtain rfl : ts = [] := by simpa using hl
      simp [costL, flatL]; omega
    | cons k ks =>
      have := ih (fun t ht => H t (List.mem_cons_of_mem _ ht)) ks (by simpa using hl)
      simp only [costL, flatL, List.length_append, List.length_cons]
      omega

theorem GoodN.cost_le {h : Nat} : ∀ {t : T}, GoodN false h t → 2 + t.cost ≤ 4 * t.flat.length := by
  induction h with
  | zero =>
    rintro ⟨r, ks, ts⟩ hg
    simp only [GoodN, Fill] at hg
    obtain ⟨rfl, hf⟩ := hg
    simp [T.cost, costL, T.flat, flatL_nil]
    simp at hf
    omega
  | succ h ih =>
    rintro ⟨r, ks, ts⟩ hg
    simp only [GoodN, Fill] at hg
    obtain ⟨hl, hf, hk⟩ := hg
    have := costL_le (h := h) (fun t ht => ih (hk t ht)) ks hl
    simp only [T.cost, T.flat]
    simp at hf
    omega

theorem GoodN.cost_root {h : Nat} {t : T} (hg : GoodN true h t) : t.cost ≤ 5 + 4 * t.flat.length := by
  obtain ⟨r, ks, ts⟩ := t
  cases h with
  | zero =>
    simp only [GoodN] at hg
    obtain ⟨rfl, _⟩ := hg
    simp [T.cost, costL, T.flat, flatL_nil]
    omega
  | succ h =>
    simp only [GoodN] at hg
    obtain ⟨hl, _, hk⟩ := hg
    have := costL_le (h := h) (fun t ht => (hk t ht).cost_le) ks hl
    simp only [T.cost, T.flat]
    omega

/-- The keys of a traversal, in the order it yields them. -/
def listing (c : List Bytes) (conf : TraverseConfig) (t : T) : List Nat :=
  (dirFlat conf.reversed t.flat).filter fun q => conf.inBounds (keyOf c q)

theorem traverse_run {s : St} {H : Nat} {t : T} (ht : TreeAt s.core H t) (hw : SWF s)
    (hc : Coh s (· ∈ t.refs)) (conf : TraverseConfig) :
    ∃ fs s', traverse conf s = (.ok fs, s') ∧ Ext s s' ∧
      Strm s' conf fs t (listing s.core conf t) t.cost := by
  obtain ⟨a, s1, h1, e1, ha⟩ := getRoot_run ht hw false
  refine ⟨[Frame.new a conf], s1, ?_, e1, ?_⟩
  · unfold traverse
    rw [bind_ok h1]
    rfl
  · have hst := Strm.setup (s := s1) (conf := conf) (f := Frame.new a conf) (k := 3) ((ht.vw hc).ext hw e1) ha
      rfl rfl rfl rfl (.inl ⟨rfl, rfl, rfl, rfl⟩)
    rw [e1.core] at hst
    have : t.cost = 3 + (2 + 2 * t.keys.length + costL t.kids) := by cases t; simp only [T.cost, T.keys, T.kids]; omega
    rw [this]
    exact hst

/-- A traversal polled along a schedule. -/
theorem collect_run {s : St} {H : Nat} {t : T} (ht : TreeAt s.core H t) (hw : SWF s)
    (hc : Coh s (· ∈ t.refs)) {conf : TraverseConfig} (hS : conf.Sound) (sched : List Bool) :
    ∃ xs rest fin s', collect sched conf s = (.ok (xs.map fun q => .ok (kvOf s.core q), fin), s') ∧ Ext s s' ∧
      listing s.core conf t = xs ++ rest ∧
      (match fin with
        | none => rest = []
        | some fs' => ∃ fuel', Strm s' conf fs' t rest fuel' ∧ fuel' + sched.count true ≤ t.cost) := by
  obtain ⟨fs, s1, h1, e1, hst⟩ := traverse_run ht hw hc conf
  obtain ⟨xs, rest, fin, s2, h2, e2, ho, hfin⟩ := drive_run (c := s.core) (post := pure)
    (g := fun q => .ok (kvOf s.core q)) hS sched s1 fs _ _ e1.core hst e1.wf (fun _ _ _ => rfl)
  refine ⟨xs, rest, fin, s2, ?_, e1.trans e2, ho, hfin⟩
  unfold collect
  rw [bind_ok h1]
  exact h2

end Hyperbee
