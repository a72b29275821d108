import Verif.Proof.Codec
import Verif.Proof.Bytes
/-!
# Reading blocks: the cache, the heap and the core
-/

namespace Hyperbee

/-! ## Running computations -/

theorem bind_run (x : M α) (f : α → M β) (s : St) :
    (x >>= f) s = match x s with
      | (.ok a, s') => f a s'
      | (.error e, s') => (.error e, s') := rfl

theorem bind_ok {x : M α} {f : α → M β} {s s' : St} {a : α} (h : x s = (.ok a, s')) :
    (x >>= f) s = f a s' := by
  rw [bind_run, h]

theorem bind_error {x : M α} {f : α → M β} {s s' : St} {e : Err} (h : x s = (.error e, s')) :
    (x >>= f) s = (.error e, s') := by
  rw [bind_run, h]

@[simp] theorem pure_run (a : α) (s : St) : (pure a : M α) s = (.ok a, s) := rfl

@[simp] theorem throw_run (e : Err) (s : St) : (throw e : M α) s = (.error e, s) := rfl

@[simp] theorem orPanic_some (site : String) (a : α) : orPanic site (some a) = pure a := rfl

@[simp] theorem pure_bind_run (a : α) (f : α → M β) (s : St) : ((pure a : M α) >>= f) s = f a s := rfl

theorem readNode_some {s : St} {a : Nat} {n : Node} (h : s.heap[a]? = some n) :
    readNode a s = (.ok n, s) := by
  simp [readNode, h]

@[simp] theorem writeNode_run (a : Nat) (n : Node) (s : St) :
    writeNode a n s = (.ok (), { s with heap := s.heap.set a n }) := rfl

@[simp] theorem alloc_run (n : Node) (s : St) :
    alloc n s = (.ok s.heap.length, { s with heap := s.heap ++ [n] }) := rfl

@[simp] theorem version_run (s : St) : version s = (.ok s.core.length, s) := rfl

/-! ## The core, decoded -/

/-- A decoded block. -/
structure Blk where
  nodes : List Node
  key : Bytes
  value : Option Bytes

def levelsToNodes : List Level → Option (List Node)
  | [] => some []
  | l :: ls =>
    match levelToNode l, levelsToNodes ls with
    | some n, some ns => some (n :: ns)
    | _, _ => none

def blockOf (b : Bytes) : Option Blk :=
  match decodeNode b with
  | none => none
  | some m =>
    match decodeYolo m.index with
    | none => none
    | some ls =>
      match levelsToNodes ls with
      | none => none
      | some ns => some ⟨ns, m.key, m.value⟩

def blockAt (core : List Bytes) (q : Nat) : Option Blk := core[q]?.bind blockOf

def nodeAt (core : List Bytes) (r : Child) : Option Node :=
  (blockAt core r.seq).bind fun b => b.nodes[r.offset]?

/-- The key stored in a block (meaningful when `blockAt core q` is defined). -/
def keyOf (core : List Bytes) (q : Nat) : Bytes :=
  match blockAt core q with
  | some b => b.key
  | none => []

def valOf (core : List Bytes) (q : Nat) : Option Bytes :=
  match blockAt core q with
  | some b => b.value
  | none => none

theorem levelsToNodes_map (ns : List Node) : levelsToNodes (ns.map toLevel) = some ns := by
  induction ns with
  | nil => rfl
  | cons n ns ih => simp [levelsToNodes, levelToNode_toLevel, ih]

theorem blockOf_encodeBlock (k : Bytes) (v : Option Bytes) (ns : List Node) :
    blockOf (encodeBlock k v ns) = some ⟨ns, k, v⟩ := by
  simp [blockOf, encodeBlock, decodeNode_encodeNode, decodeYolo_encodeYolo, levelsToNodes_map]

theorem blockAt_lt {core : List Bytes} {q : Nat} {b : Blk} (h : blockAt core q = some b) :
    q < core.length := by
  unfold blockAt at h
  cases hc : core[q]? with
  | none => simp [hc] at h
  | some x => exact (List.getElem?_eq_some_iff.mp hc).1

theorem blockAt_append {core ext : List Bytes} {q : Nat} (h : q < core.length) :
    blockAt (core ++ ext) q = blockAt core q := by
  simp [blockAt, List.getElem?_append_left h]

theorem blockAt_append_some {core : List Bytes} {q : Nat} {b : Blk} (h : blockAt core q = some b)
    (ext : List Bytes) : blockAt (core ++ ext) q = some b := by
  rw [blockAt_append (blockAt_lt h), h]

theorem blockAt_last (core : List Bytes) (x : Bytes) : blockAt (core ++ [x]) core.length = blockOf x := by
  simp [blockAt]

theorem nodeAt_lt {core : List Bytes} {r : Child} {n : Node} (h : nodeAt core r = some n) :
    r.seq < core.length := by
  unfold nodeAt at h
  cases hb : blockAt core r.seq with
  | none => simp [hb] at h
  | some b => exact blockAt_lt hb

theorem nodeAt_append {core : List Bytes} {r : Child} (h : r.seq < core.length) (ext : List Bytes) :
    nodeAt (core ++ ext) r = nodeAt core r := by
  simp [nodeAt, blockAt_append h]

theorem keyOf_append {core : List Bytes} {q : Nat} (h : q < core.length) (ext : List Bytes) :
    keyOf (core ++ ext) q = keyOf core q := by
  simp [keyOf, blockAt_append h]

theorem valOf_append {core : List Bytes} {q : Nat} (h : q < core.length) (ext : List Bytes) :
    valOf (core ++ ext) q = valOf core q := by
  simp [valOf, blockAt_append h]

/-! ## Well formed handles -/

/-- The address of the in-memory copy of a referenced node, if its block is cached. -/
def addrOf (s : St) (r : Child) : Option Nat := (s.cache r.seq).bind fun e => e.nodes[r.offset]?

/-- Every block is readable, cached blocks agree with the core (apart from node contents), and
distinct references have distinct addresses. -/
structure SWF (s : St) : Prop where
  rd : ∀ q, s.io.readable q = true
  ent : ∀ q e, s.cache q = some e → ∃ b, blockAt s.core q = some b ∧ e.key = b.key ∧
    e.value = b.value ∧ e.nodes.length = b.nodes.length
  lt : ∀ r (a : Nat), addrOf s r = some a → a < s.heap.length
  inj : ∀ r r' (a : Nat), addrOf s r = some a → addrOf s r' = some a → r = r'

/-- The in-memory copies of the references in `R` are what the core says. -/
def Coh (s : St) (R : Child → Prop) : Prop :=
  ∀ r, R r → ∀ a, addrOf s r = some a → s.heap[a]? = nodeAt s.core r

theorem Coh.mono {s : St} {R R' : Child → Prop} (h : Coh s R) (hr : ∀ r, R' r → R r) : Coh s R' :=
  fun r hr' a ha => h r (hr r hr') a ha

/-- `s'` is `s` after some blocks have been loaded into the cache. -/
structure Ext (s s' : St) : Prop where
  core : s'.core = s.core
  io : s'.io = s.io
  heap : ∃ xs, s'.heap = s.heap ++ xs
  cache : ∀ q e, s.cache q = some e → s'.cache q = some e
  fresh : ∀ r (a : Nat), addrOf s' r = some a →
    addrOf s r = some a ∨ (s.heap.length ≤ a ∧ s'.heap[a]? = nodeAt s.core r)
  wf : SWF s'

theorem Ext.refl {s : St} (h : SWF s) : Ext s s :=
  ⟨rfl, rfl, ⟨[], by simp⟩, fun _ _ h => h, fun _ _ h => .inl h, h⟩

theorem Ext.get {s s' : St} (h : Ext s s') {a : Nat} {n : Node} (hn : s.heap[a]? = some n) :
    s'.heap[a]? = some n := by
  obtain ⟨xs, hx⟩ := h.heap
  have := (List.getElem?_eq_some_iff.mp hn).1
  rw [hx, List.getElem?_append_left this, hn]

theorem Ext.get_lt {s s' : St} (h : Ext s s') {a : Nat} (hn : a < s.heap.length) :
    s'.heap[a]? = s.heap[a]? := by
  obtain ⟨xs, hx⟩ := h.heap
  rw [hx, List.getElem?_append_left hn]

theorem Ext.len {s s' : St} (h : Ext s s') : s.heap.length ≤ s'.heap.length := by
  obtain ⟨xs, hx⟩ := h.heap
  simp [hx]

theorem Ext.addr {s s' : St} (h : Ext s s') {r : Child} {a : Nat} (ha : addrOf s r = some a) :
    addrOf s' r = some a := by
  unfold addrOf at *
  cases hc : s.cache r.seq with
  | none => simp [hc] at ha
  | some e => rw [h.cache _ _ hc]; rwa [hc] at ha

theorem Ext.trans {s s' s'' : St} (h : Ext s s') (h' : Ext s' s'') : Ext s s'' := by
  refine ⟨h'.core.trans h.core, h'.io.trans h.io, ?_, fun q e hq => h'.cache _ _ (h.cache _ _ hq),
    ?_, h'.wf⟩
  · obtain ⟨xs, hx⟩ := h.heap
    obtain ⟨ys, hy⟩ := h'.heap
    exact ⟨xs ++ ys, by simp [hy, hx]⟩
  · intro r a ha
    rcases h'.fresh r a ha with h1 | ⟨h1, h2⟩
    · rcases h.fresh r a h1 with h3 | ⟨h3, h4⟩
      · exact .inl h3
      · exact .inr ⟨h3, by rw [h'.get_lt (h.wf.lt r a h1), h4]⟩
    · exact .inr ⟨Nat.le_trans h.len h1, by rw [h2, h.core]⟩

theorem Ext.coh {s s' : St} (h : Ext s s') (hw : SWF s) {R : Child → Prop} (hc : Coh s R) : Coh s' R := by
  intro r hr a ha
  rcases h.fresh r a ha with h1 | ⟨_, h2⟩
  · rw [h.get_lt (hw.lt r a h1), h.core]; exact hc r hr a h1
  · rw [h.core]; exact h2

theorem allocLevels_run {ls : List Level} : ∀ {ns : List Node}, levelsToNodes ls = some ns → ∀ s : St,
    allocLevels ls s
      = (.ok (List.range' s.heap.length ns.length), { s with heap := s.heap ++ ns }) := by
  induction ls with
  | nil =>
    intro ns h s
    simp [levelsToNodes] at h
    subst h
    simp [allocLevels]
  | cons l ls ih =>
    intro ns h s
    unfold levelsToNodes at h
    cases h1 : levelToNode l with
    | none => simp [h1] at h
    | some n =>
      cases h2 : levelsToNodes ls with
      | none => simp [h1, h2] at h
      | some ns' =>
        simp [h1, h2] at h
        subst h
        unfold allocLevels
        rw [h1]
        simp only [orPanic_some, pure_bind_run]
        rw [bind_ok (alloc_run _ _), bind_ok (ih h2 _)]
        simp [List.range'_succ]

theorem getFromCore_run {s : St} {q : Nat} {b : Blk} (hr : s.io.readable q = true)
    (hb : blockAt s.core q = some b) :
    getFromCore q s = (.ok (some ⟨List.range' s.heap.length b.nodes.length, b.key, b.value⟩),
      { s with heap := s.heap ++ b.nodes }) := by
  unfold blockAt at hb
  cases hc : s.core[q]? with
  | none => simp [hc] at hb
  | some x =>
    simp only [hc, Option.bind_some] at hb
    unfold blockOf at hb
    cases h1 : decodeNode x with
    | none => simp [h1] at hb
    | some m =>
      simp only [h1] at hb
      cases h2 : decodeYolo m.index with
      | none => simp [h2] at hb
      | some ls =>
        simp only [h2] at hb
        cases h3 : levelsToNodes ls with
        | none => simp [h3] at hb
        | some ns =>
          simp only [h3, Option.some.injEq] at hb
          subst hb
          unfold getFromCore
          have hg : coreGet q s = (.ok (some x), s) := by simp [coreGet, hr, hc]
          rw [bind_ok hg]
          simp only [h1]
          have : makeNodeVec m.index s = (.ok (List.range' s.heap.length ns.length),
              { s with heap := s.heap ++ ns }) := by
            unfold makeNodeVec; rw [h2]; exact allocLevels_run h3 s
          unfold blockEntryNew
          simp only [bind_run, this, pure_run]

/-- The state after loading block `q`. -/
def loaded (s : St) (q : Nat) (b : Blk) : St :=
  { s with
    heap := s.heap ++ b.nodes
    cache := cacheInsert q ⟨List.range' s.heap.length b.nodes.length, b.key, b.value⟩ s.cache }

theorem addrOf_loaded_same {s : St} {q : Nat} {b : Blk} {r : Child} (h : r.seq = q) {a : Nat} :
    addrOf (loaded s q b) r = some a ↔ (r.offset < b.nodes.length ∧ a = s.heap.length + r.offset) := by
  simp only [addrOf, loaded, cacheInsert, h, if_true, Option.bind_some]
  rw [List.getElem?_eq_some_iff]
  simp only [List.length_range', List.getElem_range', Nat.one_mul]
  constructor
  · rintro ⟨h1, h2⟩; exact ⟨h1, h2.symm⟩
  · rintro ⟨h1, h2⟩; exact ⟨h1, h2.symm⟩

theorem addrOf_loaded_other {s : St} {q : Nat} {b : Blk} {r : Child} (h : r.seq ≠ q) :
    addrOf (loaded s q b) r = addrOf s r := by
  simp [addrOf, loaded, cacheInsert, h]

theorem ext_loaded {s : St} (hw : SWF s) {q : Nat} {b : Blk} (hq : s.cache q = none)
    (hb : blockAt s.core q = some b) : Ext s (loaded s q b) := by
  have hcore : (loaded s q b).core = s.core := rfl
  have hheap : (loaded s q b).heap = s.heap ++ b.nodes := rfl
  refine ⟨rfl, rfl, ⟨b.nodes, rfl⟩, ?_, ?_, ?_, ?_, ?_, ?_⟩
  · intro q' e he
    have : q' ≠ q := by intro h; subst h; rw [hq] at he; cases he
    simp [loaded, cacheInsert, this, he]
  · intro r a ha
    by_cases h : r.seq = q
    · right
      obtain ⟨h1, h2⟩ := (addrOf_loaded_same h).mp ha
      subst h2
      refine ⟨Nat.le_add_right _ _, ?_⟩
      rw [hheap, List.getElem?_append_right (Nat.le_add_right _ _)]
      simp [nodeAt, h, hb]
    · left; rwa [addrOf_loaded_other h] at ha
  · exact hw.rd
  · intro q' e he
    by_cases h : q' = q
    · subst h
      simp [loaded, cacheInsert] at he
      exact ⟨b, hb, by simp [← he]⟩
    · simp only [loaded, cacheInsert, h, if_false] at he
      exact hw.ent q' e he
  · intro r a ha
    rw [hheap, List.length_append]
    by_cases h : r.seq = q
    · obtain ⟨h1, h2⟩ := (addrOf_loaded_same h).mp ha
      omega
    · rw [addrOf_loaded_other h] at ha
      have := hw.lt r a ha
      omega
  · intro r r' a ha ha'
    by_cases h : r.seq = q <;> by_cases h' : r'.seq = q
    · obtain ⟨h1, h2⟩ := (addrOf_loaded_same h).mp ha
      obtain ⟨h3, h4⟩ := (addrOf_loaded_same h').mp ha'
      obtain ⟨rs, ro⟩ := r
      obtain ⟨rs', ro'⟩ := r'
      simp at h h' h2 h4 ⊢
      omega
    · obtain ⟨h1, h2⟩ := (addrOf_loaded_same h).mp ha
      rw [addrOf_loaded_other h'] at ha'
      have := hw.lt r' a ha'
      omega
    · obtain ⟨h1, h2⟩ := (addrOf_loaded_same h').mp ha'
      rw [addrOf_loaded_other h] at ha
      have := hw.lt r a ha
      omega
    · rw [addrOf_loaded_other h] at ha
      rw [addrOf_loaded_other h'] at ha'
      exact hw.inj r r' a ha ha'

theorem blocksGet_run {s : St} (hw : SWF s) {q : Nat} {b : Blk} (hb : blockAt s.core q = some b) :
    ∃ e s', blocksGet q s = (.ok e, s') ∧ Ext s s' ∧ s'.cache q = some e ∧ e.key = b.key ∧
      e.value = b.value ∧ e.nodes.length = b.nodes.length := by
  unfold blocksGet
  cases hq : s.cache q with
  | some e =>
    have hg : getFromCache q s = (.ok (some e), s) := by simp [getFromCache, hq]
    obtain ⟨b', hb', h1, h2, h3⟩ := hw.ent q e hq
    rw [hb] at hb'
    cases hb'
    exact ⟨e, s, by rw [bind_ok hg]; rfl, Ext.refl hw, hq, h1, h2, h3⟩
  | none =>
    have hg : getFromCache q s = (.ok none, s) := by simp [getFromCache, hq]
    refine ⟨⟨List.range' s.heap.length b.nodes.length, b.key, b.value⟩, loaded s q b, ?_,
      ext_loaded hw hq hb, ?_, rfl, rfl, by simp⟩
    · rw [bind_ok hg]
      simp only []
      rw [bind_ok (getFromCore_run (hw.rd q) hb)]
      rfl
    · simp [loaded, cacheInsert]

theorem nodeAt_block {core : List Bytes} {r : Child} {n : Node} (h : nodeAt core r = some n) :
    ∃ b, blockAt core r.seq = some b ∧ b.nodes[r.offset]? = some n := by
  unfold nodeAt at h
  cases hb : blockAt core r.seq with
  | none => simp [hb] at h
  | some b => exact ⟨b, rfl, by simpa [hb] using h⟩

theorem loadRef_run {s : St} (hw : SWF s) {r : Child} {m : Node} (hm : nodeAt s.core r = some m) :
    ∃ a s', (do let block ← blocksGet r.seq; getTreeNode block r.offset) s = (.ok a, s') ∧
      Ext s s' ∧ addrOf s' r = some a := by
  obtain ⟨b, hb, hn⟩ := nodeAt_block hm
  obtain ⟨e, s', h1, h2, h3, _, _, h6⟩ := blocksGet_run hw hb
  have hlt : r.offset < e.nodes.length := by
    rw [h6]; exact (List.getElem?_eq_some_iff.mp hn).1
  refine ⟨e.nodes[r.offset], s', ?_, h2, ?_⟩
  · rw [bind_ok h1]
    simp [getTreeNode, List.getElem?_eq_getElem hlt]
  · simp [addrOf, h3, List.getElem?_eq_getElem hlt]

theorem getChild_run {s : St} (hw : SWF s) {a : Nat} {n : Node} (hn : s.heap[a]? = some n)
    {i : Nat} {r : Child} (hc : n.children[i]? = some r) {m : Node} (hm : nodeAt s.core r = some m) :
    ∃ a' s', getChild a i s = (.ok a', s') ∧ Ext s s' ∧ addrOf s' r = some a' := by
  obtain ⟨a', s', h1, h2, h3⟩ := loadRef_run hw hm
  refine ⟨a', s', ?_, h2, h3⟩
  unfold getChild
  rw [bind_ok (readNode_some hn), hc]
  exact h1

theorem getKeyValue_run {s : St} (hw : SWF s) {a : Nat} {n : Node} (hn : s.heap[a]? = some n)
    {i q : Nat} (hq : n.keys[i]? = some q) {b : Blk} (hb : blockAt s.core q = some b) :
    ∃ s', getKeyValue a i s = (.ok ⟨q, keyOf s.core q, valOf s.core q⟩, s') ∧ Ext s s' := by
  obtain ⟨e, s', h1, h2, h3, h4, h5, _⟩ := blocksGet_run hw hb
  obtain ⟨e', s'', h1', h2', _, h4', h5', _⟩ := blocksGet_run (s := s') h2.wf (q := q) (b := b)
    (by rw [h2.core]; exact hb)
  refine ⟨s'', ?_, h2.trans h2'⟩
  unfold getKeyValue
  rw [bind_ok (readNode_some hn), hq]
  simp only [orPanic_some, pure_bind_run]
  rw [bind_ok h1, bind_ok h1']
  simp [keyOf, valOf, hb, h4, h5']

end Hyperbee
