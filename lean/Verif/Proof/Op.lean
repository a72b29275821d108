import Verif.Proof.Search
import Mathlib.Data.List.Count
import Mathlib.Data.List.Nodup
/-!
# The state in the middle of an operation

While a `put` or `del` runs it owns some nodes (the path and the nodes collected for the new block)
and edits them in place.  Everything still referenced by the new tree is untouched.
-/

namespace Hyperbee

/-- `s` with the node at `a` overwritten. -/
def St.wr (s : St) (a : Nat) (n : Node) : St := { s with heap := s.heap.set a n }

/-- `s` with a node added. -/
def St.al (s : St) (n : Node) : St := { s with heap := s.heap ++ [n] }

theorem writeNode_wr (a : Nat) (n : Node) (s : St) : writeNode a n s = (.ok (), s.wr a n) := rfl

theorem alloc_al (n : Node) (s : St) : alloc n s = (.ok s.heap.length, s.al n) := rfl

theorem St.wr_self {s : St} {a : Nat} (h : a < s.heap.length) (n : Node) :
    (s.wr a n).heap[a]? = some n := by
  simp [St.wr, h]

theorem St.wr_other {s : St} {a b : Nat} (h : a ≠ b) (n : Node) :
    (s.wr a n).heap[b]? = s.heap[b]? := by
  simp [St.wr, List.getElem?_set_ne h]

theorem St.wr_len (s : St) (a : Nat) (n : Node) : (s.wr a n).heap.length = s.heap.length := by
  simp [St.wr]

theorem St.al_self (s : St) (n : Node) : (s.al n).heap[s.heap.length]? = some n := by
  simp [St.al]

theorem St.al_other {s : St} {a : Nat} (h : a < s.heap.length) (n : Node) :
    (s.al n).heap[a]? = s.heap[a]? := by
  simp [St.al, List.getElem?_append_left h]

theorem St.al_len (s : St) (n : Node) : (s.al n).heap.length = s.heap.length + 1 := by
  simp [St.al]

theorem addrOf_wr (s : St) (a : Nat) (n : Node) (r : Child) : addrOf (s.wr a n) r = addrOf s r := rfl

theorem addrOf_al (s : St) (n : Node) (r : Child) : addrOf (s.al n) r = addrOf s r := rfl

/-- The state of a running operation: the core is still `c`, the references in `R` are clean, and
the addresses `as` are owned (distinct, allocated, and not the copy of a clean reference). -/
structure Op (c : List Bytes) (io : Io) (s : St) (R : Child → Prop) (as : List Nat) : Prop where
  core : s.core = c
  io : s.io = io
  wf : SWF s
  coh : Coh s R
  nodup : as.Nodup
  lt : ∀ a ∈ as, a < s.heap.length
  free : ∀ a ∈ as, ∀ r, R r → addrOf s r ≠ some a

section
variable {c : List Bytes} {io : Io} {s s' : St} {R R' : Child → Prop} {as as' : List Nat}

theorem Op.ext (h : Op c io s R as) (e : Ext s s') : Op c io s' R as := by
  refine ⟨e.core.trans h.core, e.io.trans h.io, e.wf, e.coh h.wf h.coh, h.nodup,
    fun a ha => Nat.lt_of_lt_of_le (h.lt a ha) e.len, ?_⟩
  intro a ha r hr hra
  rcases e.fresh r a hra with h1 | ⟨h1, _⟩
  · exact h.free a ha r hr h1
  · have := h.lt a ha; omega

theorem Op.write (h : Op c io s R as) {a : Nat} (ha : a ∈ as) (n : Node) :
    Op c io (s.wr a n) R as := by
  refine ⟨h.core, h.io, ⟨h.wf.rd, h.wf.ent, ?_, h.wf.inj⟩, ?_, h.nodup, ?_, h.free⟩
  · intro r b hb; rw [St.wr_len]; exact h.wf.lt r b hb
  · intro r hr b hb
    have : a ≠ b := fun e => h.free a ha r hr (by rw [e]; exact hb)
    rw [St.wr_other this]; exact h.coh r hr b hb
  · intro b hb; rw [St.wr_len]; exact h.lt b hb

theorem Op.alloc (h : Op c io s R as) (n : Node) : Op c io (s.al n) R (s.heap.length :: as) := by
  refine ⟨h.core, h.io, ⟨h.wf.rd, h.wf.ent, ?_, h.wf.inj⟩, ?_, ?_, ?_, ?_⟩
  · intro r b hb; rw [St.al_len]; exact Nat.lt_succ_of_lt (h.wf.lt r b hb)
  · intro r hr b hb
    rw [St.al_other (h.wf.lt r b hb)]; exact h.coh r hr b hb
  · rw [List.nodup_cons]
    exact ⟨fun hm => absurd (h.lt _ hm) (Nat.lt_irrefl _), h.nodup⟩
  · intro b hb
    rw [St.al_len]
    rcases List.mem_cons.mp hb with e | hb
    · omega
    · exact Nat.lt_succ_of_lt (h.lt b hb)
  · intro b hb r hr hra
    rcases List.mem_cons.mp hb with e | hb
    · have := h.wf.lt r b hra; omega
    · exact h.free b hb r hr hra

theorem Op.weaken (h : Op c io s R as) (hR : ∀ r, R' r → R r) (hn : as'.Nodup)
    (hs : ∀ a ∈ as', a ∈ as) : Op c io s R' as' :=
  ⟨h.core, h.io, h.wf, h.coh.mono hR, hn, fun a ha => h.lt a (hs a ha),
    fun a ha r hr => h.free a (hs a ha) r (hR r hr)⟩

theorem Op.perm (h : Op c io s R as) (hp : as'.Perm as) : Op c io s R as' :=
  h.weaken (fun _ h => h) (hp.nodup_iff.mpr h.nodup) fun _ ha => hp.mem_iff.mp ha

/-- Take ownership of the in-memory copy of a clean reference. -/
theorem Op.take (h : Op c io s R as) {r : Child} (hr : R r) {a : Nat} (ha : addrOf s r = some a) :
    Op c io s (fun r' => R r' ∧ r' ≠ r) (a :: as) := by
  refine ⟨h.core, h.io, h.wf, h.coh.mono fun r' h => h.1, ?_, ?_, ?_⟩
  · rw [List.nodup_cons]
    exact ⟨fun hm => h.free a hm r hr ha, h.nodup⟩
  · intro b hb
    rcases List.mem_cons.mp hb with e | hb
    · subst e; exact h.wf.lt r b ha
    · exact h.lt b hb
  · intro b hb r' hr' hra
    rcases List.mem_cons.mp hb with e | hb
    · subst e; exact hr'.2 (h.wf.inj r' r b hra ha)
    · exact h.free b hb r' hr'.1 hra

end

/-! ## Pending nodes -/

/-- The tree is stored by the core `c` together with the nodes `Pv` collected so far for the next
block. -/
inductive RepN (c : List Bytes) (Pv : List Node) : T → Prop where
  | old {t : T} : Rep (nodeAt c) t → RepN c Pv t
  | new {k : Nat} {ks : List Nat} {ts : List T} : Pv[k]? = some ⟨ks, ts.map T.ref⟩ →
      (∀ t ∈ ts, RepN c Pv t) → RepN c Pv (.mk ⟨c.length, k⟩ ks ts)

theorem Rep.old {c : List Bytes} {t : T} (h : Rep (nodeAt c) t) (Pv : List Node) : RepN c Pv t :=
  .old h

theorem RepN.append {c : List Bytes} {Pv : List Node} {t : T} (h : RepN c Pv t) (m : List Node) :
    RepN c (Pv ++ m) t := by
  induction h with
  | old h => exact .old h
  | new h _ ih =>
    exact .new (by rw [List.getElem?_append_left (List.getElem?_eq_some_iff.mp h).1, h]) ih

theorem RepN.ref_lt {c : List Bytes} {Pv : List Node} {t : T} (h : RepN c Pv t) :
    ∀ r ∈ t.refs, r.seq < c.length ∨ (r.seq = c.length ∧ r.offset < Pv.length) := by
  induction h with
  | old h =>
    intro r hr
    obtain ⟨n, hn⟩ := h.refs_some r hr
    exact .inl (nodeAt_lt hn)
  | @new k ks ts h _ ih =>
    intro r hr
    simp only [T.refs, List.mem_cons] at hr
    rcases hr with e | hr
    · subst e; exact .inr ⟨rfl, (List.getElem?_eq_some_iff.mp h).1⟩
    · obtain ⟨t, ht, hr⟩ := mem_refsL.mp hr
      exact ih t ht r hr

theorem RepN.fresh {c : List Bytes} {Pv : List Node} {t : T} (h : RepN c Pv t) {k : Nat}
    (hk : Pv.length ≤ k) : (⟨c.length, k⟩ : Child) ∉ t.refs := by
  intro hm
  rcases h.ref_lt _ hm with h | ⟨_, h⟩ <;> simp at h
  omega

theorem Rep.old_lt {c : List Bytes} {t : T} (h : Rep (nodeAt c) t) : ∀ r ∈ t.refs, r.seq < c.length := by
  intro r hr
  obtain ⟨n, hn⟩ := h.refs_some r hr
  exact nodeAt_lt hn

/-- The pending nodes' current contents. -/
def PendH (s : St) (as : List Nat) (Pv : List Node) : Prop :=
  as.map (fun a => s.heap[a]?) = Pv.map some

theorem PendH.len {s : St} {as : List Nat} {Pv : List Node} (h : PendH s as Pv) :
    as.length = Pv.length := by
  have := congrArg List.length h
  simpa using this

theorem PendH.nil (s : St) : PendH s [] [] := rfl

theorem PendH.same {s s' : St} {as : List Nat} {Pv : List Node} (h : PendH s as Pv)
    (hs : ∀ a ∈ as, s'.heap[a]? = s.heap[a]?) : PendH s' as Pv := by
  unfold PendH at *
  rw [← h]
  exact List.map_congr_left hs

theorem PendH.append {s : St} {as : List Nat} {Pv : List Node} (h : PendH s as Pv) {a : Nat}
    {n : Node} (hn : s.heap[a]? = some n) : PendH s (as ++ [a]) (Pv ++ [n]) := by
  unfold PendH at *
  simp [h, hn]

/-- The references of the subtrees hanging off a context. -/
def ctxRefs : List Fr → List Child
  | [] => []
  | f :: fs => refsL f.A ++ refsL f.B ++ ctxRefs fs

/-! ## Fill of nodes -/

/-- How many keys a node may have; `h` is its height above the leaves. -/
def Fill (root : Bool) (h n : Nat) : Prop :=
  n ≤ 8 ∧ (root = false → 4 ≤ n) ∧ (root = true → 0 < h → 1 ≤ n)

/-- A well filled tree with all leaves at depth `h`. -/
def GoodN (root : Bool) : Nat → T → Prop
  | 0, .mk _ ks ts => ts = [] ∧ Fill root 0 ks.length
  | h + 1, .mk _ ks ts => ts.length = ks.length + 1 ∧ Fill root (h + 1) ks.length ∧
      ∀ t ∈ ts, GoodN false h t

/-- The subtrees of a node of height `h` with `n` keys. -/
def Kids (h : Nat) (ts : List T) (n : Nat) : Prop :=
  match h with
  | 0 => ts = []
  | h + 1 => ts.length = n + 1 ∧ ∀ t ∈ ts, GoodN false h t

theorem goodN_mk {root : Bool} {h : Nat} {r : Child} {ks : List Nat} {ts : List T} :
    GoodN root h (.mk r ks ts) ↔ Fill root h ks.length ∧ Kids h ts ks.length := by
  cases h with
  | zero => simp only [GoodN, Kids]; exact And.comm
  | succ h =>
    simp only [GoodN, Kids]
    constructor
    · rintro ⟨a, b, d⟩; exact ⟨b, a, d⟩
    · rintro ⟨b, a, d⟩; exact ⟨a, b, d⟩

theorem GoodN.shape {root : Bool} {h : Nat} : ∀ {t : T}, GoodN root h t → Shape h t := by
  induction h generalizing root with
  | zero => rintro ⟨r, ks, ts⟩ hg; exact hg.1
  | succ h ih => rintro ⟨r, ks, ts⟩ hg; exact ⟨hg.1, fun t ht => ih (hg.2.2 t ht)⟩

/-- A context whose hole is at height `h`. -/
def CtxGood : Nat → List Fr → Prop
  | _, [] => True
  | h, f :: fs => f.OK ∧ Fill fs.isEmpty (h + 1) (f.ka.length + f.kb.length) ∧
      (∀ t ∈ f.A, GoodN false h t) ∧ (∀ t ∈ f.B, GoodN false h t) ∧ CtxGood (h + 1) fs

theorem CtxGood.ok {h : Nat} {fs : List Fr} (hc : CtxGood h fs) : ∀ f ∈ fs, f.OK := by
  induction fs generalizing h with
  | nil => simp
  | cons f fs ih =>
    intro g hg
    rcases List.mem_cons.mp hg with e | hg
    · subst e; exact hc.1
    · exact ih hc.2.2.2.2 g hg

theorem CtxGood.plug {h : Nat} {fs : List Fr} (hc : CtxGood h fs) {t : T}
    (ht : GoodN fs.isEmpty h t) : GoodN true (h + fs.length) (plug fs t) := by
  induction fs generalizing h t with
  | nil => exact ht
  | cons f fs ih =>
    obtain ⟨h1, h2, h3, h4, h5⟩ := hc
    have := ih h5 (t := .mk f.ref (f.ka ++ f.kb) (f.A ++ t :: f.B)) (by
      rw [goodN_mk]
      refine ⟨by simpa using h2, ?_⟩
      simp only [Kids]
      refine ⟨by simp [h1.1, h1.2]; omega, ?_⟩
      intro t' ht'
      rw [List.mem_append, List.mem_cons] at ht'
      rcases ht' with h | h | h
      · exact h3 t' h
      · subst h; exact ht
      · exact h4 t' h)
    rw [List.length_cons, show h + (fs.length + 1) = h + 1 + fs.length by omega]
    exact this

theorem CtxGood.unplug {H : Nat} {fs : List Fr} {t : T} (hok : ∀ f ∈ fs, f.OK)
    (hg : GoodN true H (Hyperbee.plug fs t)) :
    ∃ h, H = h + fs.length ∧ CtxGood h fs ∧ GoodN fs.isEmpty h t := by
  induction fs generalizing t with
  | nil => exact ⟨H, rfl, trivial, hg⟩
  | cons f fs ih =>
    obtain ⟨h, hH, hc, ht⟩ := ih (fun g hg => hok g (by simp [hg])) hg
    rw [goodN_mk] at ht
    have hf := hok f (by simp)
    cases h with
    | zero =>
      have := ht.2
      simp [Kids] at this
    | succ h =>
      simp only [Kids] at ht
      obtain ⟨h1, h2, h3⟩ := ht
      refine ⟨h, by simp [hH]; omega, ⟨hf, by simpa using h1, ?_, ?_, hc⟩, ?_⟩
      · intro t ht; exact h3 t (by simp [ht])
      · intro t ht; exact h3 t (by simp [ht])
      · exact h3 t (by simp)

/-! ## Frames in the heap -/

/-- The node of a path step is as the step says; its hole may hold any reference. -/
def FrH (c : List Bytes) (R : Child → Prop) (s : St) (f : Fr) : Prop :=
  (∃ hole, s.heap[f.a]? = some ⟨f.ka ++ f.kb, f.A.map T.ref ++ hole :: f.B.map T.ref⟩) ∧
  (∀ t ∈ f.A, Rep (nodeAt c) t ∧ ∀ r ∈ t.refs, R r) ∧
  (∀ t ∈ f.B, Rep (nodeAt c) t ∧ ∀ r ∈ t.refs, R r)

theorem FrH.same {c : List Bytes} {R : Child → Prop} {s s' : St} {f : Fr} (h : FrH c R s f)
    (hs : s'.heap[f.a]? = s.heap[f.a]?) : FrH c R s' f := by
  obtain ⟨⟨hole, h1⟩, h2, h3⟩ := h
  exact ⟨⟨hole, by rw [hs, h1]⟩, h2, h3⟩

/-- What an operation has prepared when it is about to commit: the collected nodes hold the tree
`t`, whose root is the last node collected. -/
structure Done (c : List Bytes) (io : Io) (s : St) (ch : Changes) (R : Child → Prop)
    (Pv : List Node) (t : T) : Prop where
  op : Op c io s R ch.nodes
  seq : ch.seq = c.length
  pend : PendH s ch.nodes Pv
  rep : RepN c Pv t
  ref : t.ref = ⟨c.length, Pv.length - 1⟩
  ne : Pv ≠ []
  nodup : t.refs.Nodup
  live : ∀ r ∈ t.refs, r.seq ≠ c.length → R r

end Hyperbee
