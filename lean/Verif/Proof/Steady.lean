import Verif.Proof.Browse
import Verif.Proof.RelTop
/-!
# Insertions and reads, one after the other, while others read

`Play`: as `Duet`, but which nodes the writer works on may change from step to step.  An insertion
first looks at the tree (`Browse`); then it adopts the nodes on its path, whichever copies they are,
and works on these only (`Duo`).
-/

namespace Hyperbee

/-! ## Trees are tame -/

theorem Rep.tame {C : List Bytes} {t : T} (h : Rep (nodeAt C) t) (hd : ∀ q ∈ t.flat, ∃ b, blockAt C q = some b) :
    Tame C (· ∈ t.refs) := by
  induction h with
  | @mk r ks ts hn hk ih =>
    intro x hx
    simp only [T.refs, List.mem_cons] at hx
    rcases hx with rfl | hx
    · refine ⟨_, hn, fun c hc => ?_, fun q hq => hd q ?_⟩
      · obtain ⟨u, hu, rfl⟩ := List.mem_map.mp hc
        simp only [T.refs, List.mem_cons]
        exact .inr (mem_refsL.mpr ⟨u, hu, T.ref_mem_refs u⟩)
      · rw [T.flat]; exact mem_flatL (.inl hq)
    · obtain ⟨u, hu, hxu⟩ := mem_refsL.mp hx
      obtain ⟨n, n1, n2, n3⟩ := ih u hu (fun q hq => hd q (by rw [T.flat]; exact mem_flatL (.inr ⟨u, hu, hq⟩))) x hxu
      refine ⟨n, n1, fun c hc => ?_, n3⟩
      simp only [T.refs, List.mem_cons]
      exact .inr (mem_refsL.mpr ⟨u, hu, n2 c hc⟩)

theorem pathRefs_count (x : Child) : ∀ (fs : List Fr) (n : T), (n.refs ++ fs.map (·.ref)).count x ≤ (plug fs n).refs.count x := by
  intro fs
  induction fs with
  | nil => intro n; simp [plug]
  | cons f fs ih =>
    intro n
    have := ih (.mk f.ref (f.ka ++ f.kb) (f.A ++ n :: f.B))
    simp only [plug]
    refine Nat.le_trans ?_ this
    simp only [T.refs, refsL_append, refsL, List.map_cons, List.count_append, List.count_cons]
    omega

theorem plug_path {fs : List Fr} {n : T} (h : (plug fs n).refs.Nodup) : (n.ref :: fs.map (·.ref)).Nodup := by
  have h1 : (n.refs ++ fs.map (·.ref)).Nodup := by
    rw [List.nodup_iff_count_le_one] at h ⊢
    exact fun x => Nat.le_trans (pathRefs_count x fs n) (h x)
  obtain ⟨r, ks, ts⟩ := n
  simp only [T.refs, List.cons_append] at h1
  rw [List.nodup_cons] at h1 ⊢
  refine ⟨fun hm => h1.1 (List.mem_append_right _ hm), (List.nodup_append.mp h1.2).2.1⟩

/-! ## Adopting copies -/

theorem nm_onto (i : Nat) : ∃ r, i = nm 0 r :=
  ⟨⟨(Nat.unpair i).1, (Nat.unpair i).2⟩, by simp [nm]⟩

open Classical in
/-- From now on the writer works on this copy. -/
theorem Duo.adopt {Γ Λ : Names} {sA sB : St} {R : Child → Prop} (h : Duo 0 false Γ Λ sA sB) (hc : Coh sB R) {r : Child}
    {a i : Nat} (hr : R r) (ha : Copy 0 Γ Λ sB a r) (hi : addrOf sB r = some i) :
    ∃ Γ2 Λ2, Λ.le Λ2 ∧ Duo 0 false Γ2 Λ2 sA sB ∧ Γ2 a = some i ∧
      (∀ a' i', i' ≠ i → Γ a' = some i' → Γ2 a' = some i') ∧
      ∀ a' r', r' ≠ r → Copy 0 Γ Λ sB a' r' → Copy 0 Γ2 Λ2 sB a' r' := by
  rcases ha with ⟨i', h1, h2⟩ | ⟨hg, hl⟩
  · rw [hi] at h2
    cases h2
    exact ⟨Γ, Λ, .refl Λ, h, h1, fun _ _ _ h => h, fun _ _ _ h => h⟩
  have hilt := h.wf.lt r i hi
  have hBi : sB.heap[i]? = nodeAt sB.core r := hc r hr i hi
  let Γ2 : Names := fun x => if x = a then some i else if Γ x = some i then none else Γ x
  let Λ2 : Names := fun x => if Γ x = some i then some (nm 0 r) else Λ x
  have e1 : Γ2 a = some i := if_pos rfl
  have e2 : ∀ x, x ≠ a → Γ x = some i → Γ2 x = none := fun x hx hxi => by simp only [Γ2]; rw [if_neg hx, if_pos hxi]
  have e3 : ∀ x, x ≠ a → Γ x ≠ some i → Γ2 x = Γ x := fun x hx hxi => by simp only [Γ2]; rw [if_neg hx, if_neg hxi]
  have f1 : ∀ x, Γ x = some i → Λ2 x = some (nm 0 r) := fun x hx => if_pos hx
  have f2 : ∀ x, Γ x ≠ some i → Λ2 x = Λ x := fun x hx => if_neg hx
  have ga : Γ a ≠ some i := by rw [hg]; exact fun h => by cases h
  have hkeep : ∀ a' i', i' ≠ i → Γ a' = some i' → Γ2 a' = some i' := by
    intro a' i' hne ha'
    have : a' ≠ a := by rintro rfl; rw [hg] at ha'; cases ha'
    rw [e3 a' this (by rw [ha']; exact fun h => hne (Option.some.inj h))]
    exact ha'
  have hcopy : ∀ a' r', Copy 0 Γ Λ sB a' r' → Copy 0 Γ2 Λ2 sB a' r' := by
    intro a' r' hcp
    rcases hcp with ⟨i', h1, h2⟩ | ⟨h1, h2⟩
    · by_cases hii : i' = i
      · subst hii
        have : r' = r := h.wf.inj _ _ _ h2 hi
        subst this
        have : a' ≠ a := by rintro rfl; rw [hg] at h1; cases h1
        exact .inr ⟨e2 a' this h1, f1 a' h1⟩
      · exact .inl ⟨i', hkeep a' i' hii h1, h2⟩
    · by_cases haa : a' = a
      · subst haa
        rw [hl] at h2
        have := nm_inj (Option.some.inj h2)
        subst this
        exact .inl ⟨i, e1, hi⟩
      · have hn : Γ a' ≠ some i := by rw [h1]; exact fun h => by cases h
        exact .inr ⟨by rw [e3 a' haa hn, h1], by rw [f2 a' hn, h2]⟩
  refine ⟨Γ2, Λ2, ?_, ⟨h.core, h.io, h.wf, ?_, ?_, ?_, ?_, ?_, h.ent, fun r' x hx => hcopy x r' (h.adr r' x hx), fun h => by cases h⟩,
    e1, hkeep, fun a' r' _ => hcopy a' r'⟩
  · intro x v hv
    by_cases hx : Γ x = some i
    · obtain ⟨r', rfl⟩ := nm_onto v
      have := h.wf.inj _ _ _ (h.own x r' i hv hx) hi
      subst this
      exact f1 x hx
    · rw [f2 x hx]; exact hv
  · intro x j hj
    by_cases hx : x = a
    · subst hx
      rw [e1] at hj
      cases hj
      obtain ⟨n, hn⟩ : ∃ n, sB.heap[i]? = some n := ⟨_, List.getElem?_eq_getElem hilt⟩
      refine ⟨n, ?_, hn⟩
      rw [h.cop x r hl hg, h.core, ← hBi]
      exact hn
    · by_cases hxi : Γ x = some i
      · rw [e2 x hx hxi] at hj; cases hj
      · rw [e3 x hx hxi] at hj; exact h.dom x j hj
  · intro x y j hj hj'
    have key : ∀ x, Γ2 x = some j → (x = a ∧ j = i) ∨ (x ≠ a ∧ j ≠ i ∧ Γ x = some j) := by
      intro x hk
      by_cases hx : x = a
      · subst hx; rw [e1] at hk; cases hk; exact .inl ⟨rfl, rfl⟩
      · by_cases hxi : Γ x = some i
        · rw [e2 x hx hxi] at hk; cases hk
        · rw [e3 x hx hxi] at hk; exact .inr ⟨hx, fun he => hxi (by rw [hk, he]), hk⟩
    rcases key x hj with ⟨h1, h2⟩ | ⟨_, h2, h3⟩ <;> rcases key y hj' with ⟨h1', h2'⟩ | ⟨_, h2', h3'⟩
    · rw [h1, h1']
    · exact absurd h2 h2'
    · exact absurd h2' h2
    · exact h.inj x y j h3 h3'
  · intro x v hv
    by_cases hx : Γ x = some i
    · exact (h.named hx).1
    · rw [f2 x hx] at hv; exact h.lt x v hv
  · intro x r' hr' hn
    by_cases hxa : x = a
    · subst hxa; rw [e1] at hn; cases hn
    · by_cases hx : Γ x = some i
      · rw [f1 x hx] at hr'
        have := nm_inj (Option.some.inj hr')
        subst this
        obtain ⟨n, h1, h2⟩ := h.dom x i hx
        rw [h1, h.core, ← hBi, h2]
      · rw [f2 x hx] at hr'
        rw [e3 x hxa hx] at hn
        exact h.cop x r' hr' hn
  · intro x r' j hr' hj
    by_cases hxa : x = a
    · subst hxa
      rw [e1] at hj
      cases hj
      rw [f2 x ga, hl] at hr'
      have := nm_inj (Option.some.inj hr')
      subst this
      exact hi
    · by_cases hx : Γ x = some i
      · rw [e2 x hxa hx] at hj; cases hj
      · rw [f2 x hx] at hr'
        rw [e3 x hxa hx] at hj
        exact h.own x r' j hr' hj

theorem Duo.adoptPath {sA sB : St} {R : Child → Prop} (hc : Coh sB R) {Γ Λ : Names} (h : Duo 0 false Γ Λ sA sB) :
    ∀ {rs : List Child} {pA pB : NodePath}, rs.Nodup → (∀ r ∈ rs, R r) →
    List.Forall₂ (fun r (x : Nat × Nat) => Copy 0 Γ Λ sB x.1 r) rs pA →
    List.Forall₂ (fun r (x : Nat × Nat) => addrOf sB r = some x.1) rs pB →
    pA.map Prod.snd = pB.map Prod.snd →
    ∃ Γ2 Λ2, Λ.le Λ2 ∧ Duo 0 false Γ2 Λ2 sA sB ∧ PathR Γ2 pA pB ∧
      ∀ a' r', r' ∉ rs → Copy 0 Γ Λ sB a' r' → Copy 0 Γ2 Λ2 sB a' r' := by
  intro rs
  induction rs with
  | nil =>
    intro pA pB _ _ hA hB _
    cases hA
    cases hB
    exact ⟨Γ, Λ, .refl Λ, h, .nil, fun _ _ _ h => h⟩
  | cons r rs ih =>
    intro pA pB hn hR hA hB he
    cases hA with
    | cons hA1 hA2 =>
    rename_i x pA
    cases hB with
    | cons hB1 hB2 =>
    rename_i y pB
    rw [List.nodup_cons] at hn
    simp only [List.map_cons, List.cons.injEq] at he
    obtain ⟨Γ1, Λ1, l1, d1, p1, c1⟩ := ih hn.2 (fun r hr => hR r (by simp [hr])) hA2 hB2 he.2
    obtain ⟨Γ2, Λ2, l2, d2, g2, k2, c2⟩ := d1.adopt hc (hR r (by simp)) (c1 _ _ hn.1 hA1) hB1
    refine ⟨Γ2, Λ2, l1.trans l2, d2, .cons ⟨g2, he.1⟩ ?_, ?_⟩
    · clear ih hA2
      revert hn p1 hB2
      clear he
      intro hn hB2 p1
      unfold PathR at p1
      rw [List.forall₂_iff_get] at p1 hB2 ⊢
      refine ⟨p1.1, fun j h1 h2 => ⟨k2 _ _ ?_ (p1.2 j h1 h2).1, (p1.2 j h1 h2).2⟩⟩
      intro heq
      have h3 := hB2.2 j (by rw [hB2.1]; exact h2) h2
      rw [heq] at h3
      have := h.wf.inj _ _ _ h3 hB1
      exact hn.1 (this ▸ List.getElem_mem _)
    · intro a' r' hr' hcp
      simp only [List.mem_cons, not_or] at hr'
      exact c2 a' r' hr'.1 (c1 a' r' hr'.2 hcp)

/-! ## Playing along -/

/-- See above. -/
def Play : Prog α → St → Names → Names → (St → Names → Except Err α → Prop) → Prop
  | .pure a, sB, Γ, Λ, Q => ∀ Λ' sA, Λ.le Λ' → Duo 0 false Γ Λ' sA sB →
      ∃ Γ' Λ'', Λ'.le Λ'' ∧ Duo 0 false Γ' Λ'' sA sB ∧ Q sB Γ' (.ok a)
  | .throw e, sB, Γ, Λ, Q => ∀ Λ' sA, Λ.le Λ' → Duo 0 false Γ Λ' sA sB →
      ∃ Γ' Λ'', Λ'.le Λ'' ∧ Duo 0 false Γ' Λ'' sA sB ∧ Q sB Γ' (.error e)
  | .step x k, sB, Γ, Λ, Q => ∀ Λ' sA, Λ.le Λ' → Duo 0 false Γ Λ' sA sB →
      ∃ sB' Γ' Λ'', Λ'.le Λ'' ∧ Duo 0 false Γ' Λ'' (x.run sA).2 sB' ∧ Play (k (x.run sA).1) sB' Γ' Λ'' Q

theorem Play.mono {p : Prog α} {sB : St} {Γ Λ Λ' : Names} {Q : St → Names → Except Err α → Prop}
    (h : Play p sB Γ Λ Q) (hl : Λ.le Λ') : Play p sB Γ Λ' Q := by
  cases p with
  | pure a => exact fun Λ'' sA hl' => h Λ'' sA (hl.trans hl')
  | throw e => exact fun Λ'' sA hl' => h Λ'' sA (hl.trans hl')
  | step x k => exact fun Λ'' sA hl' => h Λ'' sA (hl.trans hl')

theorem Play.switch {p : Prog α} {sB : St} {Γ Λ : Names} {Q : St → Names → Except Err α → Prop}
    (h : ∀ Λ' sA, Λ.le Λ' → Duo 0 false Γ Λ' sA sB →
      ∃ Γ' Λ'', Λ'.le Λ'' ∧ Duo 0 false Γ' Λ'' sA sB ∧ Play p sB Γ' Λ'' Q) : Play p sB Γ Λ Q := by
  cases p with
  | pure a =>
    intro Λ' sA hl hd
    obtain ⟨Γ1, Λ1, h1, h2, h3⟩ := h Λ' sA hl hd
    obtain ⟨Γ2, Λ2, h4, h5, h6⟩ := h3 Λ1 sA (.refl _) h2
    exact ⟨Γ2, Λ2, h1.trans h4, h5, h6⟩
  | throw e =>
    intro Λ' sA hl hd
    obtain ⟨Γ1, Λ1, h1, h2, h3⟩ := h Λ' sA hl hd
    obtain ⟨Γ2, Λ2, h4, h5, h6⟩ := h3 Λ1 sA (.refl _) h2
    exact ⟨Γ2, Λ2, h1.trans h4, h5, h6⟩
  | step x k =>
    intro Λ' sA hl hd
    obtain ⟨Γ1, Λ1, h1, h2, h3⟩ := h Λ' sA hl hd
    obtain ⟨sB', Γ2, Λ2, h4, h5, h6⟩ := h3 Λ1 sA (.refl _) h2
    exact ⟨sB', Γ2, Λ2, h1.trans h4, h5, h6⟩

theorem Play.bind {p : Prog α} {f : α → Prog β} {sB : St} {Γ Λ : Names} {Q : St → Names → Except Err α → Prop}
    {T : St → Names → Except Err β → Prop} (h : Play p sB Γ Λ Q)
    (hf : ∀ sB' Γ' Λ' a, Q sB' Γ' (.ok a) → Play (f a) sB' Γ' Λ' T)
    (he : ∀ sB' Γ' e, Q sB' Γ' (.error e) → T sB' Γ' (.error e)) : Play (p >>= f) sB Γ Λ T := by
  show Play (Prog.bind p f) sB Γ Λ T
  induction p generalizing sB Γ Λ with
  | pure a =>
    refine Play.switch fun Λ' sA hl hd => ?_
    obtain ⟨Γ1, Λ1, h1, h2, h3⟩ := h Λ' sA hl hd
    exact ⟨Γ1, Λ1, h1, h2, hf _ _ _ _ h3⟩
  | throw e =>
    intro Λ' sA hl hd
    obtain ⟨Γ1, Λ1, h1, h2, h3⟩ := h Λ' sA hl hd
    exact ⟨Γ1, Λ1, h1, h2, he _ _ _ h3⟩
  | step x k ih =>
    intro Λ' sA hl hd
    obtain ⟨sB', Γ', Λ'', h1, h2, h3⟩ := h Λ' sA hl hd
    exact ⟨sB', Γ', Λ'', h1, h2, ih _ h3⟩

theorem Play.replyOf {p : Prog α} {f : α → Reply} {sB : St} {Γ Λ : Names} {Q : St → Names → Except Err α → Prop}
    {T : St → Names → Except Err Reply → Prop} (h : Play p sB Γ Λ Q)
    (hf : ∀ sB' Γ' a, Q sB' Γ' (.ok a) → T sB' Γ' (.ok (f a)))
    (he : ∀ sB' Γ' e, Q sB' Γ' (.error e) → T sB' Γ' (.ok (.error e))) : Play (Prog.replyOf f p) sB Γ Λ T := by
  induction p generalizing sB Γ Λ with
  | pure a =>
    intro Λ' sA hl hd
    obtain ⟨Γ1, Λ1, h1, h2, h3⟩ := h Λ' sA hl hd
    exact ⟨Γ1, Λ1, h1, h2, hf _ _ _ h3⟩
  | throw e =>
    intro Λ' sA hl hd
    obtain ⟨Γ1, Λ1, h1, h2, h3⟩ := h Λ' sA hl hd
    exact ⟨Γ1, Λ1, h1, h2, he _ _ _ h3⟩
  | step x k ih =>
    intro Λ' sA hl hd
    obtain ⟨sB', Γ', Λ'', h1, h2, h3⟩ := h Λ' sA hl hd
    exact ⟨sB', Γ', Λ'', h1, h2, ih _ h3⟩

theorem Duet.play {p : Prog α} {sB : St} {Γ Λ : Names} {Q : St → Names → Except Err α → Prop}
    (h : Duet (Duo 0 false) p sB Γ Λ Q) : Play p sB Γ Λ Q := by
  induction p generalizing sB Γ Λ with
  | pure a => exact fun Λ' sA _ hd => ⟨Γ, Λ', .refl _, hd, h⟩
  | throw e => exact fun Λ' sA _ hd => ⟨Γ, Λ', .refl _, hd, h⟩
  | step x k ih =>
    intro Λ' sA hl hd
    obtain ⟨sB', Γ', Λ'', _, h2, h3, h4⟩ := h Λ' sA hl hd
    exact ⟨sB', Γ', Λ'', h2, h3, ih _ h4⟩

/-- First a part that only looks at the tree. -/
theorem Play.browse {p : Prog α} {f : α → Prog β} {sB : St} {Γ Λ N : Names} {R : Child → Prop} {C : List Bytes}
    {Q : St → Names → Except Err α → Prop} {T : St → Names → Except Err β → Prop}
    (h : Duet (Browse 0 Γ R C) p sB N Λ Q) (hv : Valid 0 Γ R C N Λ sB)
    (hf : ∀ sB' N' Λ' a, N.le N' → Valid 0 Γ R C N' Λ' sB' → Q sB' N' (.ok a) → Play (f a) sB' Γ Λ' T)
    (he : ∀ sB' N' Λ' e, N.le N' → Valid 0 Γ R C N' Λ' sB' → Q sB' N' (.error e) → Play (.throw e) sB' Γ Λ' T) :
    Play (p >>= f) sB Γ Λ T := by
  show Play (Prog.bind p f) sB Γ Λ T
  induction p generalizing sB N Λ with
  | pure a => exact hf _ _ _ _ (.refl _) hv h
  | throw e => exact he _ _ _ _ (.refl _) hv h
  | step x k ih =>
    intro Λ' sA hl hd
    obtain ⟨sB', N', Λ'', h1, h2, ⟨h3, h4⟩, h5⟩ := h Λ' sA hl ⟨hd, hv.mono hl⟩
    exact ⟨sB', Γ, Λ'', h2, h3, ih _ h5 h4 (fun sB2 N2 Λ2 a g => hf sB2 N2 Λ2 a (h1.trans g))
      fun sB2 N2 Λ2 e g => he sB2 N2 Λ2 e (h1.trans g)⟩

/-- A program that only looks at the tree. -/
theorem Play.ofBrowse {p : Prog α} {sB : St} {Γ Λ N : Names} {R : Child → Prop} {C : List Bytes}
    {Q T : St → Names → Except Err α → Prop} (h : Duet (Browse 0 Γ R C) p sB N Λ Q) (hv : Valid 0 Γ R C N Λ sB)
    (hq : ∀ sB' N' r, Q sB' N' r → T sB' Γ r) : Play p sB Γ Λ T := by
  induction p generalizing sB N Λ with
  | pure a => exact fun Λ' sA _ hd => ⟨Γ, Λ', .refl _, hd, hq _ _ _ h⟩
  | throw e => exact fun Λ' sA _ hd => ⟨Γ, Λ', .refl _, hd, hq _ _ _ h⟩
  | step x k ih =>
    intro Λ' sA hl hd
    obtain ⟨sB', N', Λ'', h1, h2, ⟨h3, h4⟩, h5⟩ := h Λ' sA hl ⟨hd, hv.mono hl⟩
    exact ⟨sB', Γ, Λ'', h2, h3, ih _ h5 h4⟩

/-- The next step. -/
theorem Play.next {p : Prog α} {sA sB : St} {Γ Λ : Names} {Q : St → Names → Except Err α → Prop}
    (h : Play p sB Γ Λ Q) (hd : Duo 0 false Γ Λ sA sB) :
    ∃ sB' Γ' Λ', Λ.le Λ' ∧ Duo 0 false Γ' Λ' (p.next sA).2 sB' ∧ Play (p.next sA).1 sB' Γ' Λ' Q := by
  cases p with
  | pure a => exact ⟨sB, Γ, Λ, .refl Λ, hd, h⟩
  | throw e => exact ⟨sB, Γ, Λ, .refl Λ, hd, h⟩
  | step x k => exact h Λ sA (.refl Λ) hd

/-! ## Among readers -/

/-- One program plays along, the others read. -/
theorem among_play {w : Nat} {Q : St → Names → Except Err α → Prop} :
    ∀ (sched : List Nat) (ps : List (Prog α)) (s : St) (Γ Λ : Names) (sB : St) (p : Prog α),
    ps[w]? = some p → Duo 0 false Γ Λ s sB → Play p sB Γ Λ Q →
    (∀ j p, j ≠ w → ps[j]? = some p → Fetching 0 (fun _ => True) p Λ s.core) →
    ∀ a, (Prog.interleave sched ps s).1[w]? = some (.pure a) →
    ∃ sB' Γ' Λ', Q sB' Γ' (.ok a) ∧ Duo 0 false Γ' Λ' (Prog.interleave sched ps s).2 sB' := by
  intro sched
  induction sched with
  | nil =>
    intro ps s Γ Λ sB p hw hd hq _ a ha
    simp only [Prog.interleave] at ha
    rw [hw] at ha
    cases ha
    obtain ⟨Γ', Λ', _, h1, h2⟩ := hq Λ s (.refl _) hd
    exact ⟨sB, Γ', Λ', h2, h1⟩
  | cons i is ih =>
    intro ps s Γ Λ sB p hw hd hq hps a ha
    simp only [Prog.interleave] at ha ⊢
    cases hi : ps[i]? with
    | none =>
      rw [hi] at ha
      exact ih ps s Γ Λ sB p hw hd hq hps a ha
    | some p' =>
      rw [hi] at ha
      dsimp only at ha ⊢
      have hlt := (List.getElem?_eq_some_iff.mp hi).1
      by_cases hiw : i = w
      · subst hiw
        rw [hw] at hi
        cases hi
        obtain ⟨sB', Γ', Λ', h2, h3, h4⟩ := hq.next hd
        refine ih _ _ Γ' Λ' sB' _ (List.getElem?_set_self hlt) h3 h4 (fun j q hj hq => ?_) a ha
        rw [List.getElem?_set_ne (Ne.symm hj)] at hq
        exact (hps j q hj hq).mono h2 (Prog.next_grows p s)
      · obtain ⟨Λ', h1, h2, h3, h4⟩ := (hps i p' hiw hi).next (duo_files (fun _ => True) false Γ sB) ⟨hd, fun _ _ => trivial⟩
          (fun h => by cases h)
        refine ih _ _ Γ Λ' sB p (by rw [List.getElem?_set_ne hiw]; exact hw) h2.1 (hq.mono h1) (fun j q hj hq => ?_) a ha
        by_cases hij : i = j
        · subst hij
          rw [List.getElem?_set_self hlt] at hq
          cases hq
          exact h4
        · rw [List.getElem?_set_ne hij] at hq
          exact (hps j q hj hq).mono h1 (by rw [h3]; exact List.prefix_refl _)

end Hyperbee
