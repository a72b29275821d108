import Verif.SpecShare
import Verif.Proof.Space
/-!
# Helper lemmas: what versions share
-/

namespace Hyperbee

theorem below_rep {c : List Bytes} {p j : Nat} {t : T} (h : Rep (nodeAt c) t) :
    Below c p j t.ref.seq t.ref.offset ↔ ⟨p, j⟩ ∈ t.refs := by
  induction h with
  | @mk r ks ts hn hk ih =>
    obtain ⟨q, i⟩ := r
    obtain ⟨m, ls, l, h1, h2, h3, h4⟩ := node_wire hn
    simp only at h3 h4
    simp only [T.ref, T.refs, List.mem_cons, Child.mk.injEq]
    constructor
    · intro h
      cases h with
      | here _ _ => exact .inl ⟨rfl, rfl⟩
      | @child _ _ m2 ls2 l' refs r b2 l2 hc hm hb =>
        rw [h1] at b2
        cases b2
        rw [h2] at l2
        cases l2
        rw [h4] at hc
        have := flatMap_pair_inj hc
        subst this
        simp only [List.map_map, List.mem_map, Function.comp] at hm
        obtain ⟨u, hu, rfl⟩ := hm
        exact .inr (mem_refsL.mpr ⟨u, hu, (ih u hu).mp hb⟩)
    · rintro (⟨rfl, rfl⟩ | h)
      · exact .here h1 (List.getElem?_eq_some_iff.mp h2).1
      · obtain ⟨u, hu, h⟩ := mem_refsL.mp h
        exact .child h1 h2 h4 (r := (u.ref.seq, u.ref.offset)) (by simp; exact ⟨u, hu, rfl, rfl⟩) ((ih u hu).mpr h)

theorem rep_append {c : List Bytes} {t : T} (h : Rep (nodeAt c) t) (ext : List Bytes) : Rep (nodeAt (c ++ ext)) t :=
  h.mono fun r hr n hn => by rw [nodeAt_append (h.seq_lt r hr)]; exact hn

/-- The tree of a version, seen from later ones. -/
theorem TreeAt.version {c : List Bytes} {n H : Nat} {t : T} (hn : n ≤ c.length) (h : TreeAt (c.take n) H t) {p j : Nat} :
    InVersion c n p j ↔ ⟨p, j⟩ ∈ t.refs := by
  have hl : (c.take n).length = n := by simp [hn]
  have hr : Rep (nodeAt c) t := by
    have := rep_append h.rep (c.drop n)
    rwa [List.take_append_drop] at this
  have h2 := h.two
  have href := h.ref
  rw [hl] at h2 href
  rw [← below_rep hr, href]
  exact ⟨fun x => x.2.2, fun x => ⟨h2, hn, x⟩⟩

/-- Each version takes over only nodes of the one before, and all its new nodes are in its tree. -/
structure Shares (c : List Bytes) : Prop where
  tree : ∀ n, 2 ≤ n → n ≤ c.length → ∃ H t, TreeAt (c.take n) H t ∧ Newest (c.take n) H t
  next : ∀ n, 2 ≤ n → n < c.length → ∀ H t H' t', TreeAt (c.take n) H t → TreeAt (c.take (n + 1)) H' t' →
    (∀ r ∈ t'.refs, r.seq ≠ n → r ∈ t.refs) ∧ t.flat.length ≤ t'.flat.length + 1
  first : 2 ≤ c.length → ∀ H t, TreeAt (c.take 2) H t → ∀ r ∈ t.refs, r.seq = 1

theorem Shares.snoc {c : List Bytes} {b : Bytes} (h : Shares c) (hn : 1 ≤ c.length → ∃ H t, Newest (c ++ [b]) H t)
    (hs : 2 ≤ c.length → ∀ H t H' t', TreeAt c H t → TreeAt (c ++ [b]) H' t' →
      (∀ r ∈ t'.refs, r.seq ≠ c.length → r ∈ t.refs) ∧ t.flat.length ≤ t'.flat.length + 1)
    (hf : c.length = 1 → ∀ H t, TreeAt (c ++ [b]) H t → ∀ r ∈ t.refs, r.seq = 1) :
    Shares (c ++ [b]) := by
  refine ⟨?_, ?_, ?_⟩
  · intro n h2 hl
    by_cases hle : n ≤ c.length
    · rw [List.take_append_of_le_length hle]
      exact h.tree n h2 hle
    · have : n = c.length + 1 := by simp at hl; omega
      rw [List.take_of_length_le (by simp; omega)]
      obtain ⟨H, t, x⟩ := hn (by omega)
      exact ⟨H, t, x.tree, x⟩
  · intro n h2 hl H t H' t'
    by_cases hle : n + 1 ≤ c.length
    · rw [List.take_append_of_le_length hle, List.take_append_of_le_length (by omega)]
      exact h.next n h2 (by omega) H t H' t'
    · have : n = c.length := by simp at hl; omega
      subst this
      rw [List.take_append_of_le_length (Nat.le_refl _), List.take_of_length_le (Nat.le_refl _),
        List.take_of_length_le (by simp)]
      exact hs h2 H t H' t'
  · intro hl
    by_cases hle : 2 ≤ c.length
    · rw [List.take_append_of_le_length hle]
      exact h.first hle
    · rw [List.take_of_length_le (by simp; omega)]
      exact hf (by simp at hl; omega)

theorem Shares.short {c : List Bytes} (h : c.length ≤ 1) : Shares c :=
  ⟨fun n h2 hn => by omega, fun n h2 hn => by omega, fun h2 => by omega⟩

theorem Shares.step {s : St} {d : Db} (h : Holds s d) (hs : Shares s.core) (c : Cmd) : Shares (exec c s).2.core := by
  cases exec_step h c with
  | same hc _ => rw [hc]; exact hs
  | header m _ hc _ => rw [hc]; exact .short (by simp)
  | first k v t' h1 _ w =>
    obtain ⟨ns, hns, _⟩ := w.core
    have hl : s.ready.core.length ≤ 1 := by
      rcases ready_core s with hr | ⟨_, hr⟩
      · rw [hr]; exact h1
      · rw [hr]; simp
    have hnew := w.newest
    have htr := w.tree
    rw [hns] at hnew htr ⊢
    refine (Shares.short hl).snoc (fun _ => ⟨_, _, hnew⟩) (fun h2 => by omega) fun h1 K u hu r hr => ?_
    rw [hu.unique htr] at hr
    exact Classical.byContradiction fun hne => w.live r hr (by omega)
  | put k v H t H' t' m pre post ht _ l w _ =>
    obtain ⟨ns, hns, _⟩ := w.core
    have hnew := w.newest
    have htr := w.tree
    rw [hns] at hnew htr ⊢
    have h2 := ht.two
    refine hs.snoc (fun _ => ⟨_, _, hnew⟩) (fun _ K u K' u' hu hu' => ?_) (fun h1 => by omega)
    rw [hu.unique ht, hu'.unique htr]
    refine ⟨w.live, ?_⟩
    rw [w.flat, l.eq]
    cases m <;> simp <;> omega
  | del k H t H' t' q pre post ht _ l w _ =>
    obtain ⟨ns, hns, _⟩ := w.core
    have hnew := w.newest
    have htr := w.tree
    rw [hns] at hnew htr ⊢
    have h2 := ht.two
    refine hs.snoc (fun _ => ⟨_, _, hnew⟩) (fun _ K u K' u' hu hu' => ?_) (fun h1 => by omega)
    rw [hu.unique ht, hu'.unique htr]
    refine ⟨w.live, ?_⟩
    rw [w.flat, l.eq]
    simp
    omega

theorem Reachable.shares {s : St} (h : Reachable s) : Shares s.core := by
  obtain ⟨cs, rfl⟩ := h
  induction cs using snocInd with
  | nil => exact .short (by simp [Hyperbee.runSt, run, St.init, St.open])
  | snoc cs c ih =>
    rw [runSt_snoc]
    exact ih.step (run_holds cs) c

/-! ## Parents -/

/-- `u` is `t` or below it. -/
inductive Sub (u : T) : T → Prop where
  | self : Sub u u
  | kid {t x : T} (mem : x ∈ t.kids) (below : Sub u x) : Sub u t

theorem T.refs_kids (t : T) : t.refs = t.ref :: refsL t.kids := by
  cases t; rfl

theorem T.ref_mem (t : T) : t.ref ∈ t.refs := by rw [T.refs_kids]; exact List.mem_cons_self ..

theorem Sub.refs {u t : T} (h : Sub u t) : ∀ r ∈ u.refs, r ∈ t.refs := by
  induction h with
  | self => intro r hr; exact hr
  | kid hx _ ih =>
    intro r hr
    rw [T.refs_kids]
    exact List.mem_cons_of_mem _ (mem_refsL.mpr ⟨_, hx, ih r hr⟩)

theorem Sub.rep {N : Child → Option Node} {u t : T} (h : Sub u t) : Rep N t → Rep N u := by
  induction h with
  | self => exact id
  | kid hx _ ih => exact fun hr => ih (hr.kids _ hx)

theorem T.sub_of_ref (t : T) : ∀ r ∈ t.refs, ∃ u, Sub u t ∧ u.ref = r := by
  induction t using T.ind with
  | h r ks ts ih =>
    intro r' hr
    rw [T.refs_kids] at hr
    rcases List.mem_cons.mp hr with rfl | hr
    · exact ⟨_, .self, rfl⟩
    · obtain ⟨x, hx, hr⟩ := mem_refsL.mp hr
      obtain ⟨u, hu, e⟩ := ih x hx r' hr
      exact ⟨u, .kid hx hu, e⟩

theorem refsL_apart : ∀ {ts : List T}, (refsL ts).Nodup → ∀ {i j : Nat} {x y : T} {r : Child}, ts[i]? = some x →
    ts[j]? = some y → r ∈ x.refs → r ∈ y.refs → i = j := by
  intro ts
  induction ts with
  | nil => intro _ i j x y r h; cases h
  | cons t ts ih =>
    intro hn i j x y r hx hy hrx hry
    rw [refsL] at hn
    obtain ⟨_, h2, h3⟩ := List.nodup_append.mp hn
    cases i with
    | zero =>
      cases j with
      | zero => rfl
      | succ j =>
        cases hx
        have : y ∈ ts := List.mem_of_getElem? hy
        exact absurd rfl (h3 r hrx r (mem_refsL.mpr ⟨y, this, hry⟩))
    | succ i =>
      cases j with
      | zero =>
        cases hy
        have : x ∈ ts := List.mem_of_getElem? hx
        exact absurd rfl (h3 r hry r (mem_refsL.mpr ⟨x, this, hrx⟩))
      | succ j => exact congrArg (· + 1) (ih h2 hx hy hrx hry)

theorem Sub.kid_strict {w t : T} (h : Sub w t) {y : T} (hy : y ∈ w.kids) : y.ref ∈ refsL t.kids := by
  cases h with
  | self => exact mem_refsL.mpr ⟨y, hy, y.ref_mem⟩
  | kid hx h =>
    refine mem_refsL.mpr ⟨_, hx, h.refs _ ?_⟩
    rw [T.refs_kids]
    exact List.mem_cons_of_mem _ (mem_refsL.mpr ⟨y, hy, y.ref_mem⟩)

theorem one_parent (t : T) : t.refs.Nodup → ∀ {u w x y : T} {a b : Nat}, Sub u t → Sub w t → u.kids[a]? = some x →
    w.kids[b]? = some y → x.ref = y.ref → u.ref = w.ref ∧ a = b := by
  induction t using T.ind with
  | h r ks ts ih =>
    intro hn u w x y a b hu hw hx hy he
    rw [T.refs_kids] at hn
    obtain ⟨_, hn⟩ := List.nodup_cons.mp hn
    have hkid : ∀ z ∈ ts, z.refs.Nodup := by
      intro z hz
      obtain ⟨l1, l2, rfl⟩ := List.append_of_mem hz
      replace hn : (refsL (l1 ++ z :: l2)).Nodup := hn
      rw [refsL_append, refsL] at hn
      exact (List.nodup_append.mp (List.nodup_append.mp hn).2.1).1
    -- a child of the top is not below a child of the top
    have top : ∀ {v v' : T} {i : Nat} {z z' : T}, ts[i]? = some z → z' ∈ ts → Sub v z' → v' ∈ v.kids → z.ref = v'.ref → False := by
      intro v v' i z z' hz hz' hv hv' e
      have h1 := hv.kid_strict hv'
      rw [← e] at h1
      obtain ⟨k, hk⟩ := List.getElem?_of_mem hz'
      have h2 : z.ref ∈ z'.refs := by rw [T.refs_kids]; exact List.mem_cons_of_mem _ h1
      have := refsL_apart hn hz hk z.ref_mem h2
      subst this
      rw [hz] at hk
      cases hk
      have h3 := hkid z hz'
      rw [T.refs_kids] at h3
      exact (List.nodup_cons.mp h3).1 h1
    cases hu with
    | self =>
      cases hw with
      | self =>
        refine ⟨rfl, refsL_apart hn hx hy x.ref_mem ?_⟩
        rw [he]; exact y.ref_mem
      | kid hz hw => exact (top hx hz hw (List.mem_of_getElem? hy) he).elim
    | @kid _ z hz hu =>
      cases hw with
      | self => exact (top hy hz hu (List.mem_of_getElem? hx) he.symm).elim
      | @kid _ z' hz' hw =>
        obtain ⟨i, hi⟩ := List.getElem?_of_mem hz
        obtain ⟨i', hi'⟩ := List.getElem?_of_mem hz'
        have h1 : x.ref ∈ z.refs := by
          rw [T.refs_kids]; exact List.mem_cons_of_mem _ (hu.kid_strict (List.mem_of_getElem? hx))
        have h2 : x.ref ∈ z'.refs := by
          rw [T.refs_kids, he]; exact List.mem_cons_of_mem _ (hw.kid_strict (List.mem_of_getElem? hy))
        have := refsL_apart hn hi hi' h1 h2
        subst this
        rw [hi] at hi'
        cases hi'
        exact ih z hz (hkid z hz) hu hw hx hy he

/-! ## Counting keys -/

/-- The number of keys of a node. -/
def weight (c : List Bytes) (r : Child) : Nat :=
  match nodeAt c r with
  | none => 0
  | some n => n.keys.length

theorem weight_mk {c : List Bytes} {r : Child} {ks : List Nat} {ts : List T} (h : nodeAt c r = some ⟨ks, ts.map T.ref⟩) :
    weight c r = ks.length := by
  unfold weight; rw [h]

theorem weight_sum {c : List Bytes} {t : T} (h : Rep (nodeAt c) t) : (t.refs.map (weight c)).sum = t.flat.length := by
  induction h with
  | @mk r ks ts hn hk ih =>
    simp only [T.refs, T.flat, List.map_cons, List.sum_cons, flatL_sum, weight_mk hn]
    congr 1
    clear hn hk
    induction ts with
    | nil => rfl
    | cons t ts iht =>
      rw [refsL, List.map_append, List.sum_append, List.map_cons, List.sum_cons, ih t (List.mem_cons_self ..),
        iht fun u hu => ih u (List.mem_cons_of_mem _ hu)]

theorem weights {c : List Bytes} : ∀ {H : Nat} {b : Bool} {t : T}, GoodN b H t → Rep (nodeAt c) t →
    ∀ r ∈ t.refs, weight c r ≤ 8 ∧ (b = false ∨ r ≠ t.ref → 4 ≤ weight c r) := by
  intro H
  induction H with
  | zero =>
    rintro b ⟨r, ks, ts⟩ ⟨rfl, hf⟩ h r' hr'
    have hn : nodeAt c r = some ⟨ks, []⟩ := h.node
    have hw : weight c r = ks.length := weight_mk (ts := []) hn
    simp only [T.refs, refsL, List.mem_cons, List.not_mem_nil, or_false] at hr'
    subst hr'
    rw [hw]
    refine ⟨hf.1, ?_⟩
    rintro (hb | hb)
    · exact hf.2.1 hb
    · exact absurd rfl hb
  | succ H ih =>
    rintro b ⟨r, ks, ts⟩ ⟨_, hf, hk⟩ h r' hr'
    have hw : weight c r = ks.length := weight_mk h.node
    simp only [T.refs, List.mem_cons] at hr'
    rcases hr' with rfl | hr'
    · rw [hw]
      refine ⟨hf.1, ?_⟩
      rintro (hb | hb)
      · exact hf.2.1 hb
      · exact absurd rfl hb
    · obtain ⟨u, hu, hr'⟩ := mem_refsL.mp hr'
      obtain ⟨h1, h2⟩ := ih (hk u hu) (h.kids u hu) r' hr'
      exact ⟨h1, fun _ => h2 (.inl rfl)⟩

theorem sum_filter {α : Type} (f : α → Nat) (p : α → Bool) : ∀ l : List α,
    (l.map f).sum = ((l.filter p).map f).sum + ((l.filter fun x => !p x).map f).sum := by
  intro l
  induction l with
  | nil => rfl
  | cons x l ih =>
    simp only [List.map_cons, List.sum_cons, ih]
    cases h : p x <;> simp [h] <;> omega

theorem sum_le_mul {α : Type} (f : α → Nat) (k : Nat) : ∀ l : List α, (∀ x ∈ l, f x ≤ k) → (l.map f).sum ≤ k * l.length := by
  intro l
  induction l with
  | nil => intro _; simp
  | cons x l ih =>
    intro h
    have h1 := h x (List.mem_cons_self ..)
    have h2 := ih fun y hy => h y (List.mem_cons_of_mem _ hy)
    simp only [List.map_cons, List.sum_cons, List.length_cons, Nat.mul_add]
    omega

theorem all_le_sum {α : Type} (f : α → Nat) (k : Nat) : ∀ l : List α, (∀ x ∈ l, k ≤ f x) → k * l.length ≤ (l.map f).sum := by
  intro l
  induction l with
  | nil => intro _; simp
  | cons x l ih =>
    intro h
    have h1 := h x (List.mem_cons_self ..)
    have h2 := ih fun y hy => h y (List.mem_cons_of_mem _ hy)
    simp only [List.map_cons, List.sum_cons, List.length_cons, Nat.mul_add]
    omega

theorem mul_le_sum {α : Type} [DecidableEq α] (f : α → Nat) (k : Nat) (z : α) : ∀ l : List α, l.Nodup →
    (∀ x ∈ l, x ≠ z → k ≤ f x) → k * l.length ≤ (l.map f).sum + k := by
  intro l
  induction l with
  | nil => intro _ _; simp
  | cons x l ih =>
    intro hn h
    obtain ⟨hx, hn⟩ := List.nodup_cons.mp hn
    simp only [List.map_cons, List.sum_cons, List.length_cons, Nat.mul_add]
    by_cases e : x = z
    · subst e
      have h2 := all_le_sum f k l fun y hy => h y (List.mem_cons_of_mem _ hy) (fun e => hx (e ▸ hy))
      omega
    · have h1 := h x (List.mem_cons_self ..) e
      have h2 := ih hn fun y hy => h y (List.mem_cons_of_mem _ hy)
      omega

/-- Nodes dropped and nodes new. -/
theorem dropped_few {c : List Bytes} {H H' : Nat} {t t' : T} (h : Rep (nodeAt c) t) (hg : GoodN true H t) (hn : t.refs.Nodup)
    (h' : Rep (nodeAt c) t') (hg' : GoodN true H' t') (hn' : t'.refs.Nodup) (hl : t.flat.length ≤ t'.flat.length + 1) :
    (t.refs.filter fun r => !decide (r ∈ t'.refs)).length ≤ 2 * (t'.refs.filter fun r => !decide (r ∈ t.refs)).length + 1 := by
  have e1 := sum_filter (weight c) (fun r => decide (r ∈ t'.refs)) t.refs
  have e2 := sum_filter (weight c) (fun r => decide (r ∈ t.refs)) t'.refs
  have hp : (t.refs.filter fun r => decide (r ∈ t'.refs)).Perm (t'.refs.filter fun r => decide (r ∈ t.refs)) := by
    refine (List.perm_ext_iff_of_nodup (hn.filter _) (hn'.filter _)).mpr fun r => ?_
    simp only [List.mem_filter, decide_eq_true_eq]
    exact And.comm
  have e3 := (hp.map (weight c)).sum_nat
  rw [weight_sum h] at e1
  rw [weight_sum h'] at e2
  have l1 := sum_le_mul (weight c) 8 (t'.refs.filter fun r => !decide (r ∈ t.refs)) fun r hr =>
    (weights hg' h' r (List.mem_filter.mp hr).1).1
  have l2 := mul_le_sum (weight c) 4 t.ref (t.refs.filter fun r => !decide (r ∈ t'.refs)) (hn.filter _) fun r hr hne =>
    (weights hg h r (List.mem_filter.mp hr).1).2 (.inr hne)
  omega

end Hyperbee
