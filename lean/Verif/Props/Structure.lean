import Verif.Proof.STree
import Verif.Props.Contents
/-!
# The blocks and the tree in them

Properties C08, C14, C15, C17, C21, C34, C35, C41.
-/

namespace Hyperbee

/-! ## C14 -/

/-- C14.  On any state whatsoever - corrupt core, failing reads, failing appends - a call leaves the
existing blocks as they are.  What it adds is one block if (judging by its reply) it wrote
something, and besides that at most the header, and that only if there was no block at all and the
call is a put or `create_header`. -/
theorem append_only (c : Cmd) (s : St) : ∃ new, (exec c s).2.core = s.core ++ new ∧
    (s.core ≠ [] ∨ c.starts = false → new.length = (effect c (exec c s).1).toList.length) ∧
    (s.core = [] → c.starts = true →
      new.length ≤ 1 + (effect c (exec c s).1).toList.length ∧
      (effect c (exec c s).1 ≠ none → new.length = 2)) := by
  obtain ⟨hdr, blk, h1, h2, h3, h4⟩ := exec_appends c s
  refine ⟨hdr ++ blk, by rw [h1, List.append_assoc], ?_, ?_⟩
  · intro h
    rcases h3 with rfl | ⟨h0, _, h3⟩
    · simpa using h2
    · rcases h with h | h
      · exact absurd h0 h
      · rcases h3 with ⟨k, v, rfl⟩ | ⟨k, v, f, rfl⟩ | ⟨m, rfl⟩ <;> simp [Cmd.starts] at h
  · intro h0 hc
    have hl : hdr.length ≤ 1 := by
      rcases h3 with rfl | ⟨_, h, _⟩
      · simp
      · omega
    refine ⟨by simp only [List.length_append]; omega, ?_⟩
    intro he
    cases hw : effect c (exec c s).1 with
    | none => exact absurd hw he
    | some w =>
      rw [hw] at h2
      have : hdr.length = 1 := by
        have hne : hdr ≠ [] := by
          cases w with
          | set k v => exact h4 k v hw h0
          | clear k =>
            exfalso
            cases c <;> simp only [Cmd.starts, Bool.false_eq_true] at hc
            · cases hr : (exec (.put _ _) s).1 <;> rw [hr] at hw <;> simp [effect] at hw
            · cases hr : (exec (.putCas _ _ _) s).1 with
              | putCas a b => rw [hr] at hw; cases b <;> simp [effect] at hw
              | _ => rw [hr] at hw; simp [effect] at hw
            · cases hr : (exec (.createHeader _) s).1 <;> rw [hr] at hw <;> simp [effect] at hw
        cases hdr with
        | nil => exact absurd rfl hne
        | cons x xs => simp at hl ⊢; exact hl
      simp only [List.length_append, Option.toList_some, List.length_singleton] at h2 ⊢
      omega

/-- C14 over a whole history, from any state. -/
theorem never_rewritten (cs : List Cmd) (s : St) (q : Nat) (b : Bytes) (h : s.core[q]? = some b) :
    (runSt cs s).core[q]? = some b := by
  obtain ⟨e, he⟩ := run_appends cs s
  rw [← he, List.getElem?_append_left (List.getElem?_eq_some_iff.mp h).1, h]

/-- A core of garbage: the calls fail, and nothing is appended. -/
example : (exec (.put [1] none) (St.open [[], [255], [1, 2, 3]])).1 = .error .decode ∧
    (exec (.put [1] none) (St.open [[], [255], [1, 2, 3]])).2.core = [[], [255], [1, 2, 3]] := by decide +kernel
/-- A put on the empty core appends two blocks, a refused one only the header. -/
example : (exec (.put [1] none) St.init).2.core.length = 2 ∧
    (exec (.putCas [1] none fun _ _ => false) St.init).2.core.length = 1 := by decide +kernel
example : (runSt demo St.init).core[17]? = (runSt demoPuts St.init).core[17]? ∧
    ((runSt demoPuts St.init).core[17]?).isSome := by decide +kernel

/-! ## C15, C17 -/

/-- C15.  Cut the core of a history after `n` blocks (a crash) and reopen it.  What is there is what
the first `n - 1` writes of the history left. -/
theorem crash_contents (cs : List Cmd) (n : Nat) (hn : n ≤ (runSt cs St.init).core.length) (k : Bytes) :
    (exec (.get k) (St.open ((runSt cs St.init).core.take n))).1 =
      .got (lastWrite k ((effects cs (runReplies cs St.init)).take (n - 1)).reverse) := by
  obtain ⟨cs', h1, h2⟩ := history_prefix cs n hn
  rw [← h1]
  have h3 := (run_holds cs').stored.open.get k
  rw [h3, (logged cs').map k]
  exact congrArg _ (congrArg _ (congrArg _ h2))

/-- C15, continued.  From there on the database behaves exactly like one that only ever saw those
writes. -/
theorem crash_continues (cs : List Cmd) (n : Nat) (hn : n ≤ (runSt cs St.init).core.length) :
    ∃ cs', effects cs' (runReplies cs' St.init) = (effects cs (runReplies cs St.init)).take (n - 1) ∧
      ∀ later, runReplies later (St.open ((runSt cs St.init).core.take n)) = runReplies later (runSt cs' St.init) ∧
        (runSt later (St.open ((runSt cs St.init).core.take n))).core = (runSt later (runSt cs' St.init)).core := by
  obtain ⟨cs', h1, h2⟩ := history_prefix cs n hn
  refine ⟨cs', h2, fun later => ?_⟩
  rw [← h1]
  exact cache_invisible ⟨cs', rfl⟩ later

example : (runSt demo St.init).core.length = 40 ∧
    (exec (.get (demoKey 3)) (St.open ((runSt demo St.init).core.take 31))).1 = .got (some (10, some (demoKey 109))) ∧
    (exec (.get (demoKey 3)) (St.open ((runSt demo St.init).core.take 32))).1 = .got (some (31, none)) := by
  decide +kernel

/-- C17.  The blocks a database had at some point, opened later (a checkout, or a replica that lags
behind), answer everything as the database did then. -/
theorem old_version (cs cs' later : List Cmd) :
    let then_ := runSt cs St.init
    let now := runSt (cs ++ cs') St.init
    runReplies later (St.open (now.core.take then_.core.length)) = runReplies later then_ ∧
    (runSt later (St.open (now.core.take then_.core.length))).core = (runSt later then_).core := by
  intro then_ now
  have : now.core.take then_.core.length = then_.core := by
    obtain ⟨e, he⟩ := run_appends cs' then_
    show (runSt (cs ++ cs') St.init).core.take _ = _
    rw [runSt_append, ← he]
    simp
  rw [this]
  exact cache_invisible ⟨cs, rfl⟩ later

/-- C17 in terms of version numbers: what version `n` contains does not depend on anything written
after it. -/
theorem old_version_contents (cs cs' : List Cmd) (n : Nat) (hn : n ≤ (runSt cs St.init).core.length) (k : Bytes) :
    (exec (.get k) (St.open ((runSt (cs ++ cs') St.init).core.take n))).1 =
      .got (lastWrite k ((effects cs (runReplies cs St.init)).take (n - 1)).reverse) := by
  have : (runSt (cs ++ cs') St.init).core.take n = (runSt cs St.init).core.take n := by
    obtain ⟨e, he⟩ := run_appends cs' (runSt cs St.init)
    rw [runSt_append, ← he, List.take_append_of_le_length hn]
  rw [this]
  exact crash_contents cs n hn k

example : (runSt demoPuts St.init).core.length = 31 ∧ (runSt demo St.init).core.length = 40 ∧
    (exec (.get (demoKey 8)) (St.open ((runSt demo St.init).core.take 31))).1 =
      (exec (.get (demoKey 8)) (runSt demoPuts St.init)).1 ∧
    (exec (.get (demoKey 8)) (runSt demo St.init)).1 = .got none := by decide +kernel

/-! ## C08 -/

/-- C08.  In every reachable state with a root, the newest block is the top of a B-tree of order 8,
and its keys are exactly the keys of the database. -/
theorem stored_btree {s : St} (hs : Reachable s) (h2 : 2 ≤ s.core.length) :
    ∃ t, StoresRoot s.core t ∧ IsBTree t ∧ (∀ t', StoresRoot s.core t' → t' = t) ∧
      ∀ q k, (q, k) ∈ t.inorder ↔ ∃ v, (exec (.get k) s).1 = .got (some (q, v)) := by
  obtain ⟨d, h⟩ := hs.holds
  rcases h.store with hb | ⟨H, t, ht, _, hcon⟩
  · have := hb.1; omega
  · refine ⟨t.spec s.core, ht.stores, ht.btree, fun t' h' => h'.unique ht.stores, ?_⟩
    intro q k
    rw [spec_inorder, List.mem_map, h.get]
    simp only [Reply.got.injEq]
    constructor
    · rintro ⟨q', h1, h2⟩
      cases h2
      exact ⟨valOf s.core q, (hcon _ _ _).mpr ⟨h1, rfl, rfl⟩⟩
    · rintro ⟨v, hv⟩
      obtain ⟨h1, h2, _⟩ := (hcon k q v).mp hv
      exact ⟨q, h1, by rw [h2]⟩

/-- Sixty keys in increasing order. -/
def ascending : List Cmd := (List.range 60).map fun i => .put (demoKey i) none

/-- They make a tree of three levels. -/
example : 2 ≤ (runSt ascending St.init).core.length ∧
    ((wireBlock (runSt ascending St.init).core 60).map fun x => x.2) =
      some [⟨[25], [49, 1, 60, 1]⟩,
        ⟨[30, 35, 40, 45, 50, 55], [34, 1, 39, 1, 44, 1, 49, 3, 54, 2, 59, 2, 60, 2]⟩, ⟨[56, 57, 58, 59, 60], []⟩] := by
  decide +kernel

/-- The empty root: after deleting everything the tree is a single node without keys. -/
example : StoresRoot (runSt demoEmptied St.init).core (.node [] []) :=
  .mk (m := ⟨[10, 0], demoKey 8, none⟩) (ls := [⟨[], []⟩]) (l := ⟨[], []⟩) (refs := [])
    (by decide +kernel) rfl rfl (by simp) rfl rfl (by simp)

/-! ## C21 -/

/-- C21.  Every block but the header decodes, carries at least one node, and refers only to what
exists: see `SoundBlock`. -/
theorem block_references {s : St} (hs : Reachable s) {q : Nat} (h1 : 1 ≤ q) (h2 : q < s.core.length) :
    ∃ m ls, wireBlock s.core q = some (m, ls) ∧ 0 < ls.length ∧ SoundBlock s.core q ls := hs.sound h1 h2

/-- A block with several nodes that refer to each other and to older blocks. -/
example : ((wireBlock (runSt demo St.init).core 9).map fun x => x.2) =
    some [⟨[3], [9, 1, 9, 2]⟩, ⟨[1, 6, 2, 7], []⟩, ⟨[8, 4, 9, 5], []⟩] := by decide +kernel

/-! ## C34 -/

theorem flatL_lower {m : Nat} : ∀ {ts : List T} {ks : List Nat}, ts.length = ks.length + 1 →
    (∀ t ∈ ts, m ≤ t.flat.length + 1) → ts.length * m ≤ (flatL ks ts).length + 1 := by
  intro ts
  induction ts with
  | nil => intro ks h; simp at h
  | cons t ts ih =>
    intro ks h hm
    have h1 := hm t (by simp)
    cases ks with
    | nil =>
      have : ts = [] := by cases ts with
        | nil => rfl
        | cons _ _ => simp at h
      subst this
      simp only [flatL, List.length_singleton, List.length_append, List.length_nil]
      omega
    | cons k ks =>
      have h2 := ih (ks := ks) (by simpa using h) (fun u hu => hm u (by simp [hu]))
      simp only [flatL, List.length_cons, List.length_append, Nat.add_mul, Nat.one_mul]
      omega

theorem GoodN.lower : ∀ {H : Nat} {t : T}, GoodN false H t → 5 ^ (H + 1) ≤ t.flat.length + 1 := by
  intro H
  induction H with
  | zero =>
    intro t h
    obtain ⟨r, ks, ts⟩ := t
    obtain ⟨rfl, hf⟩ := h
    have := hf.2.1 rfl
    simp only [T.flat, flatL_nil]
    omega
  | succ H ih =>
    intro t h
    obtain ⟨r, ks, ts⟩ := t
    obtain ⟨h1, hf, h2⟩ := h
    have h3 := flatL_lower (ks := ks) h1 fun t ht => ih (h2 t ht)
    have h4 := hf.2.1 rfl
    rw [T.flat, Nat.pow_succ]
    have : 5 * 5 ^ (H + 1) ≤ ts.length * 5 ^ (H + 1) := Nat.mul_le_mul_right _ (by omega)
    omega

theorem GoodN.lower_root {H : Nat} {t : T} (h : GoodN true H t) (hne : t.flat ≠ []) :
    2 * 5 ^ H ≤ t.flat.length + 1 := by
  obtain ⟨r, ks, ts⟩ := t
  cases H with
  | zero =>
    have := List.length_pos_iff.mpr hne
    simp only [Nat.pow_zero]
    omega
  | succ H =>
    obtain ⟨h1, hf, h2⟩ := h
    have h3 := flatL_lower (ks := ks) h1 fun t ht => (h2 t ht).lower
    have h4 := hf.2.2 rfl (by omega)
    rw [T.flat]
    have : 2 * 5 ^ (H + 1) ≤ ts.length * 5 ^ (H + 1) := Nat.mul_le_mul_right _ (by omega)
    omega

/-- The tree of a reachable state, with what is cached of it. -/
theorem Reachable.treeAt_coh {s : St} (hs : Reachable s) {t : STree} (ht : StoresRoot s.core t) :
    ∃ H u, TreeAt s.core H u ∧ Coh s (· ∈ u.refs) ∧ t = u.spec s.core := by
  obtain ⟨d, h⟩ := hs.holds
  rcases h.store with hb | ⟨H, u, hu, hc, _⟩
  · exfalso
    have hb1 := hb.1
    cases ht with
    | mk block level _ _ _ _ _ =>
      have hlt := wireBlock_lt block
      -- the only block there can be is a header, which has no nodes
      have h1 : s.core.length = 1 := by omega
      obtain ⟨cs, rfl⟩ := hs
      obtain ⟨m, hm⟩ := header_of_len cs h1
      rw [hm] at block
      rw [show [encodeHeader ⟨PROTOCOL, m⟩].length - 1 = 0 from rfl] at block
      rw [wireBlock_header m] at block
      cases block
  · exact ⟨H, u, hu, hc, ht.unique hu.stores⟩

/-- The tree of a reachable state, for the statements about a given one. -/
theorem Reachable.treeAt {s : St} (hs : Reachable s) {t : STree} (ht : StoresRoot s.core t) :
    ∃ H u, TreeAt s.core H u ∧ t = u.spec s.core := by
  obtain ⟨H, u, hu, _, h⟩ := hs.treeAt_coh ht
  exact ⟨H, u, hu, h⟩

/-- C34.  A tree of `h` levels holds at least `2 * 5 ^ (h - 1) - 1` keys, provided it holds any. -/
theorem height_log {s : St} (hs : Reachable s) {t : STree} (ht : StoresRoot s.core t) {h : Nat}
    (hh : h ∈ t.leafDepths) (hne : t.inorder ≠ []) : 2 * 5 ^ (h - 1) - 1 ≤ t.inorder.length := by
  obtain ⟨H, u, hu, rfl⟩ := hs.treeAt ht
  have := spec_depths hu.good.shape h hh
  subst this
  rw [spec_inorder] at hne ⊢
  have := hu.good.lower_root (by simpa using hne)
  simp only [Nat.add_sub_cancel, List.length_map]
  omega

/-- The bound is attained: with 9 keys in one split root there are two levels, and `2 * 5 - 1 = 9`. -/
example : ((wireBlock (runSt (ascending.take 9) St.init).core 9).map fun x => x.2) =
    some [⟨[5], [9, 1, 9, 2]⟩, ⟨[1, 2, 3, 4], []⟩, ⟨[6, 7, 8, 9], []⟩] := by decide +kernel

/-- The proviso is needed: an emptied database has one level and no keys. -/
theorem height_log_needs_keys : ∃ s t, Reachable s ∧ StoresRoot s.core t ∧ 1 ∈ t.leafDepths ∧
    ¬ 2 * 5 ^ (1 - 1) - 1 ≤ t.inorder.length :=
  ⟨runSt demoEmptied St.init, .node [] [], ⟨_, rfl⟩,
    .mk (m := ⟨[10, 0], demoKey 8, none⟩) (ls := [⟨[], []⟩]) (l := ⟨[], []⟩) (refs := [])
      (by decide +kernel) rfl rfl (by simp) rfl rfl (by simp),
    by simp [STree.leafDepths], by simp [STree.inorder, STree.inorder.weave]⟩

/-! ## C35 -/

theorem GoodN.news_keys : ∀ {H : Nat} {b : Bool} {t : T} {v : Nat}, GoodN b H t → ∀ u ∈ t.news v, u.keys.length ≤ 8 := by
  intro H b t v h
  have := T.news_all (P := fun u => u.keys.length ≤ 8 ∧ ∃ H b, GoodN b H u) (v := v) (t := t) ?_ ?_
  · exact fun u hu => (this u hu).1
  · rintro t ⟨_, H', b', h'⟩ u hu
    obtain ⟨r, ks, ts⟩ := t
    cases H' with
    | zero => rw [T.kids, h'.1] at hu; simp at hu
    | succ H' =>
      have hg := h'.2.2 u hu
      refine ⟨?_, H', false, hg⟩
      obtain ⟨r, ks, ts⟩ := u
      cases H' with
      | zero => exact hg.2.1
      | succ H' => exact hg.2.1.1
  · refine ⟨?_, H, b, h⟩
    obtain ⟨r, ks, ts⟩ := t
    cases H with
    | zero => exact h.2.1
    | succ H => exact h.2.1.1

/-- The block a write appends. -/
theorem Wrote.wire {c : List Bytes} {io : Io} {key : Bytes} {value : Option Bytes} {old : Child → Prop}
    {s' : St} {H : Nat} {t' : T} {flat : List Nat} {mx : Nat} (w : Wrote c io key value old s' H t' flat mx) :
    ∃ m ls, s'.core.length = c.length + 1 ∧ wireBlock s'.core c.length = some (m, ls) ∧ m.key = key ∧ m.value = value ∧
      ls.length ≤ mx ∧ (∀ l ∈ ls, l.keys.length ≤ 8) ∧ ∀ l ∈ ls, ∀ q ∈ l.keys, q ∈ flat := by
  obtain ⟨ns, h1, h2, h3, _, h4⟩ := w.core
  have hb : blockAt s'.core c.length = some ⟨ns, key, value⟩ := by
    rw [h1, blockAt_last, blockOf_encodeBlock]
  obtain ⟨m, ls, w1, w2, w3, w4⟩ := wireBlock_blockAt hb
  obtain ⟨l1, l2⟩ := levelsToNodes_get w4
  simp only at l1 l2
  have hmem : ∀ l ∈ ls, ∃ u ∈ t'.news c.length, l.keys = u.keys := by
    intro l hl
    obtain ⟨i, hi, hil⟩ := List.getElem_of_mem hl
    have hin : i < ns.length := by omega
    obtain ⟨l', g1, g2, _⟩ := l2 i ns[i] (by simp [hin])
    rw [List.getElem?_eq_getElem hi, hil] at g1
    cases g1
    have : ns[i] ∈ t'.pre c.length := by rw [← h4]; exact List.getElem_mem hin
    rw [T.pre_news, List.mem_map] at this
    obtain ⟨u, hu, hn⟩ := this
    exact ⟨u, hu, by rw [g2, ← hn]; rfl⟩
  refine ⟨m, ls, by rw [h1]; simp, w1, w2, w3, by omega, ?_, ?_⟩
  · intro l hl
    obtain ⟨u, hu, he⟩ := hmem l hl
    rw [he]
    exact w.tree.good.news_keys u hu
  · intro l hl q hq
    obtain ⟨u, hu, he⟩ := hmem l hl
    have := T.news_all (P := fun u => ∀ q ∈ u.flat, q ∈ t'.flat) (v := c.length) (t := t') ?_ (fun q hq => hq) u hu q ?_
    · rw [w.flat] at this; exact this
    · intro t ht u hu q hq
      obtain ⟨r, ks, ts⟩ := t
      exact ht q (by rw [T.flat]; exact mem_flatL (.inr ⟨u, hu, hq⟩))
    · rw [he] at hq
      obtain ⟨r, ks, ts⟩ := u
      rw [T.flat]; exact mem_flatL (.inl hq)

/-- The number of levels of the tree in a core: none without a root. -/
def HasLevels (core : List Bytes) (h : Nat) : Prop :=
  (core.length ≤ 1 ∧ h = 0) ∨ ∃ t, StoresRoot core t ∧ h ∈ t.leafDepths

theorem Reachable.levels {s : St} (hs : Reachable s) {H h : Nat} {u : T} (hu : TreeAt s.core H u)
    (hh : HasLevels s.core h) : h = H + 1 := by
  rcases hh with ⟨h1, _⟩ | ⟨t, ht, hd⟩
  · have := hu.two; omega
  · rw [ht.unique hu.stores] at hd
    exact spec_depths hu.good.shape h hd

/-- Every reachable core has a number of levels. -/
theorem has_levels {s : St} (hs : Reachable s) : ∃ h, HasLevels s.core h := by
  obtain ⟨d, h⟩ := hs.holds
  rcases h.store with hb | ⟨H, u, hu, _⟩
  · exact ⟨0, .inl ⟨hb.1, rfl⟩⟩
  · obtain ⟨x, hx⟩ := List.exists_mem_of_ne_nil _ (spec_depths_ne s.core u)
    exact ⟨x, .inr ⟨_, hu.stores, hx⟩⟩

/-- C35.  A write on a tree of `h` levels puts at most `2 * h + 1` nodes into its block, each with at
most 8 keys. -/
theorem write_size {s : St} (hs : Reachable s) {c : Cmd} (he : effect c (exec c s).1 ≠ none) {h : Nat}
    (hh : HasLevels s.core h) :
    ∃ m ls, wireBlock (exec c s).2.core ((exec c s).2.core.length - 1) = some (m, ls) ∧ ls.length ≤ 2 * h + 1 ∧
      ∀ l ∈ ls, l.keys.length ≤ 8 := by
  obtain ⟨d, hd⟩ := hs.holds
  cases exec_step hd c with
  | same _ e => exact absurd e he
  | header m _ _ e => exact absurd e he
  | first k v t' h1 e w =>
    obtain ⟨m, ls, x1, x2, _, _, x5, x6, _⟩ := w.wire
    exact ⟨m, ls, by rw [x1]; exact x2, by omega, x6⟩
  | put k v H t H' t' m pre post ht e l w hH =>
    obtain ⟨m, ls, x1, x2, _, _, x5, x6, _⟩ := w.wire
    have := hs.levels ht hh
    exact ⟨m, ls, by rw [x1]; exact x2, by omega, x6⟩
  | del k H t H' t' q pre post ht e l w hH =>
    obtain ⟨m, ls, x1, x2, _, _, x5, x6, _⟩ := w.wire
    have := hs.levels ht hh
    exact ⟨m, ls, by rw [x1]; exact x2, by omega, x6⟩

/-- The level count moves by at most one per write. -/
theorem levels_step {s : St} (hs : Reachable s) (c : Cmd) {h h' : Nat} (hh : HasLevels s.core h)
    (hh' : HasLevels (exec c s).2.core h') : h' ≤ h + 1 := by
  obtain ⟨d, hd⟩ := hs.holds
  cases exec_step hd c with
  | same e _ =>
    rw [e] at hh'
    rcases hd.store with hb | ⟨H, u, hu, _⟩
    · rcases hh' with ⟨_, h2⟩ | ⟨t, ht, _⟩
      · omega
      · obtain ⟨H, u, hu, _⟩ := hs.treeAt ht
        have := hu.two; have := hb.1; omega
    · rw [hs.levels hu hh, hs.levels hu hh']; omega
  | header m _ e _ =>
    rcases hh' with ⟨_, h2⟩ | ⟨t, ht, _⟩
    · omega
    · obtain ⟨H, u, hu, _⟩ := (hs.step c).treeAt ht
      have := hu.two
      rw [e] at this; simp at this
  | first k v t' h1 e w => rw [(hs.step c).levels w.tree hh']; omega
  | put k v H t H' t' m pre post ht e l w hH =>
    rw [hs.levels ht hh, (hs.step c).levels w.tree hh']; omega
  | del k H t H' t' q pre post ht e l w hH =>
    rw [hs.levels ht hh, (hs.step c).levels w.tree hh']; omega

/-- Three nodes for the split of a one-level tree: the bound is attained. -/
example : effect (.put (demoKey 8) none) (exec (.put (demoKey 8) none) (runSt (ascending.take 8) St.init)).1 ≠ none ∧
    ((wireBlock (exec (.put (demoKey 8) none) (runSt (ascending.take 8) St.init)).2.core 9).map fun x => x.2.length) =
      some 3 := by decide +kernel

/-! ## C41 -/

/-- C41.  The block an effective deletion of `k` appends carries `k` and no value, and none of its
nodes refers to the block itself. -/
theorem tombstone_block {s : St} (hs : Reachable s) {c : Cmd} {k : Bytes}
    (he : effect c (exec c s).1 = some (.clear k)) :
    ∃ m ls, (exec c s).2.core.length = s.core.length + 1 ∧ wireBlock (exec c s).2.core s.core.length = some (m, ls) ∧
      m.key = k ∧ m.value = none ∧ ∀ l ∈ ls, s.core.length ∉ l.keys := by
  obtain ⟨d, hd⟩ := hs.holds
  cases exec_step hd c with
  | same _ e => rw [e] at he; cases he
  | header m _ _ e => rw [e] at he; cases he
  | first k v t' h1 e w => rw [e] at he; cases he
  | put k v H t H' t' m pre post ht e l w hH => rw [e] at he; cases he
  | del k' H t H' t' q pre post ht e l w hH =>
    rw [e] at he
    cases he
    obtain ⟨m, ls, x1, x2, x3, x4, _, _, x7⟩ := w.wire
    refine ⟨m, ls, x1, x2, x3, x4, fun l' hl hq => ?_⟩
    have h1 := x7 l' hl _ hq
    have h2 : s.core.length ∈ t.flat := by
      rw [l.eq]
      rcases List.mem_append.mp h1 with h | h
      · simp [h]
      · simp [h]
    have := ht.flat_lt _ h2
    omega

/-- Numbers that no entry has stay unused. -/
theorem Db.unused_next {d : Db} {q : Nat} (hv : q < d.version) (hq : ∀ k v, d.map k ≠ some (q, v)) (c : Cmd) :
    q < (d.next c).version ∧ ∀ k v, (d.next c).map k ≠ some (q, v) := by
  have hw : ∀ k v, q < (d.write k v).version ∧ ∀ k' v', (d.write k v).map k' ≠ some (q, v') := by
    intro k v
    refine ⟨by simp only [Db.write, Db.nextSeq]; omega, ?_⟩
    intro k' v'
    simp only [Db.write, Db.nextSeq]
    split
    · intro h
      simp only [Option.some.injEq, Prod.mk.injEq] at h
      omega
    · exact hq k' v'
  have hh : q < d.withHeader.version ∧ ∀ k' v', d.withHeader.map k' ≠ some (q, v') := by
    refine ⟨by simp only [Db.withHeader, Db.nextSeq]; omega, hq⟩
  have hr : ∀ k, q < (d.remove k).version ∧ ∀ k' v', (d.remove k).map k' ≠ some (q, v') := by
    intro k
    refine ⟨by simp only [Db.remove]; omega, ?_⟩
    intro k' v'
    simp only [Db.remove]
    split
    · simp
    · exact hq k' v'
  cases c with
  | version => exact ⟨hv, hq⟩
  | get k => exact ⟨hv, hq⟩
  | put k v => exact hw k v
  | putCas k v f =>
    simp only [Db.next]
    split
    · exact hw k v
    · exact hh
  | del k =>
    simp only [Db.next]
    split
    · exact hr k
    · exact ⟨hv, hq⟩
  | delCas k f =>
    simp only [Db.next]
    split
    · exact ⟨hv, hq⟩
    · split
      · exact hr k
      · exact ⟨hv, hq⟩
  | createHeader m => exact hh
  | traverse b sched => exact ⟨hv, hq⟩
  | reopen => exact ⟨hv, hq⟩

theorem Db.unused_after : ∀ (cs : List Cmd) {d : Db} {q : Nat}, q < d.version → (∀ k v, d.map k ≠ some (q, v)) →
    ∀ k v, (d.after cs).map k ≠ some (q, v) := by
  intro cs
  induction cs with
  | nil => intro d q _ h; exact h
  | cons c cs ih =>
    intro d q hv hq
    obtain ⟨h1, h2⟩ := d.unused_next hv hq c
    exact ih h1 h2

/-- C41, continued.  However the history goes on, no `get` ever returns the deletion's block. -/
theorem tombstone_never_read {s : St} (hs : Reachable s) {c : Cmd} {k : Bytes}
    (he : effect c (exec c s).1 = some (.clear k)) (cs : List Cmd) (k' : Bytes) (v : Option Bytes) :
    (exec (.get k') (runSt cs (exec c s).2)).1 ≠ .got (some (s.core.length, v)) := by
  obtain ⟨d, hd⟩ := hs.holds
  obtain ⟨h1, h2⟩ := exec_refines hd c
  have hlt : ∀ k v, d.map k ≠ some (s.core.length, v) := by
    intro k v hk
    rcases hd.store with hb | ⟨H, t, ht, _, hcon⟩
    · rw [hb.2 k] at hk; cases hk
    · have := ht.flat_lt _ ((hcon k _ v).mp hk).1
      omega
  have h3 : s.core.length < (d.next c).version ∧ ∀ k v, (d.next c).map k ≠ some (s.core.length, v) := by
    obtain ⟨m, ls, x1, _⟩ := tombstone_block hs he
    refine ⟨by rw [h2.ver, x1]; omega, ?_⟩
    have hrm : ∀ k, ∀ k' v', (d.remove k).map k' ≠ some (s.core.length, v') := by
      intro k k' v'
      simp only [Db.remove]
      split
      · simp
      · exact hlt k' v'
    cases c with
    | del k =>
      simp only [Db.next]
      split
      · exact hrm k
      · exact hlt
    | delCas k f =>
      simp only [Db.next]
      split
      · exact hlt
      · split
        · exact hrm k
        · exact hlt
    | put k v => rw [h1] at he; simp [effect] at he
    | putCas k v f =>
      simp only [Db.Returns] at h1
      rw [h1] at he
      split at he <;> simp [effect] at he
    | _ => simp [effect] at he
  rw [(run_refines cs h2).2.get]
  intro h
  simp only [Reply.got.injEq] at h
  exact Db.unused_after cs h3.1 h3.2 k' v h

example : effect (.del (demoKey 9)) (exec (.del (demoKey 9)) (runSt demo St.init)).1 = some (.clear (demoKey 9)) := by
  decide +kernel

end Hyperbee
