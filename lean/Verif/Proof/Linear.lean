import Verif.Proof.Rivals
import Verif.Proof.Gate
/-!
# Readers among calls that write, through several handles

A call that reads has its effect at its first step (`Proof/Used.lean`), one that writes at its last.
-/

namespace Hyperbee

/-! ## A handle that has been read through shows the database -/

theorem name_inj {b : St} {C : List Bytes} (hw : SWF (b.on C)) {r r' : Child} {e e' : BlockEntry} {i : Nat}
    (h : idealEntry (b.on C) r.seq = .ok e) (hi : e.nodes[r.offset]? = some i)
    (h' : idealEntry (b.on C) r'.seq = .ok e') (hi' : e'.nodes[r'.offset]? = some i) : r = r' := by
  have key : ∀ {r : Child} {e : BlockEntry}, idealEntry (b.on C) r.seq = .ok e → e.nodes[r.offset]? = some i →
      (addrOf (b.on C) r = some i ∧ i < b.heap.length) ∨
      i = b.heap.length + Nat.pair r.seq r.offset := by
    intro r e h hi
    rw [idealEntry_eq] at h
    cases hc : b.cache r.seq with
    | some e0 =>
      rw [hc] at h
      cases h
      have ha : addrOf (b.on C) r = some i := by
        show (b.cache r.seq).bind _ = _
        rw [hc]; exact hi
      exact .inl ⟨ha, hw.lt r i ha⟩
    | none =>
      simp only [hc] at h
      split at h
      · cases h
      · split at h
        · cases h
          simp only [List.getElem?_map, Option.map_eq_some_iff] at hi
          obtain ⟨j, hj, rfl⟩ := hi
          have hlt := (List.getElem?_eq_some_iff.mp hj).1
          rw [List.getElem?_range (by simpa using hlt)] at hj
          cases hj
          exact .inr rfl
        · cases h
  rcases key h hi with ⟨h1, h2⟩ | h1
  · rcases key h' hi' with ⟨g1, g2⟩ | g1
    · exact hw.inj r r' i h1 g1
    · omega
  · rcases key h' hi' with ⟨g1, g2⟩ | g1
    · omega
    · have : Nat.pair r.seq r.offset = Nat.pair r'.seq r'.offset := by omega
      obtain ⟨rs, ro⟩ := r
      obtain ⟨rs', ro'⟩ := r'
      simpa [Nat.pair_eq_pair] using this

theorem KnownB.addr {b : St} {Γ : Names} {s : St} (h : KnownB b Γ s) {r : Child} {a : Nat} (ha : addrOf s r = some a) :
    ∃ e i, idealEntry (b.on s.core) r.seq = .ok e ∧ e.nodes[r.offset]? = some i ∧ Γ a = some i := by
  unfold addrOf at ha
  cases hc : s.cache r.seq with
  | none => rw [hc] at ha; cases ha
  | some e0 =>
    rw [hc] at ha
    simp only [Option.bind_some] at ha
    obtain ⟨e, h1, h2⟩ := h.ent _ _ hc
    have := forall2_rel h2.nodes r.offset
    rw [ha] at this
    cases hi : e.nodes[r.offset]? with
    | none => rw [hi] at this; nomatch this
    | some i =>
      rw [hi] at this
      cases this with
      | some h3 => exact ⟨e, i, h1, hi, h3⟩

theorem KnownB.holds {b : St} {Γ : Names} {s : St} {d : Db} (h : KnownB b Γ s) (hd : Holds (b.on s.core) d) : Holds s d := by
  have hw := hd.wf
  refine ⟨⟨fun q => by rw [h.io]; rfl, ?_, ?_, ?_⟩, by rw [h.io]; rfl, hd.ver, ?_⟩
  · intro q e he
    obtain ⟨e', h1, h2⟩ := h.ent q e he
    have hl := h2.nodes.length_eq
    cases hc : b.cache q with
    | some e0 =>
      obtain ⟨bk, g1, g2, g3, g4⟩ := hw.ent q e0 hc
      rw [idealEntry_eq, hc] at h1
      cases h1
      exact ⟨bk, g1, h2.key.trans g2, h2.value.trans g3, hl.trans g4⟩
    | none =>
      have hlt := h.lt q e he hc
      rw [idealEntry_eq, hc] at h1
      simp only at h1
      split at h1
      · cases h1
      · rename_i x hx
        split at h1
        · rename_i bk hbk
          cases h1
          refine ⟨bk, by simp [blockAt, hx, hbk], h2.key, h2.value, ?_⟩
          rw [hl]; simp
        · cases h1
  · intro r a ha
    obtain ⟨e, i, _, _, h3⟩ := h.addr ha
    obtain ⟨n, hn, _⟩ := h.dom a i h3
    exact (List.getElem?_eq_some_iff.mp hn).1
  · intro r r' a ha ha'
    obtain ⟨e, i, h1, h2, h3⟩ := h.addr ha
    obtain ⟨e', i', g1, g2, g3⟩ := h.addr ha'
    rw [h3] at g3
    cases g3
    exact name_inj hw h1 h2 g1 g2
  · rcases hd.store with hb | ⟨H, t, ht, hc, hcon⟩
    · exact .inl hb
    · refine .inr ⟨H, t, ht, ?_, hcon⟩
      intro r hr a ha
      obtain ⟨e, i, h1, h2, h3⟩ := h.addr ha
      obtain ⟨n, hn, hin⟩ := h.dom a i h3
      have ht' : TreeAt s.core H t := ht
      rw [hn, ← hin]
      exact named_node hw ht'.rep hc hr h1 h2

theorem Holds.on_self {s : St} {d : Db} (h : Holds s d) : s.on s.core = s := by
  have := h.io
  obtain ⟨_, _, _, _⟩ := s
  simp only at this
  simp only [St.on, this]

/-! ## The invariant -/

/-- The calls with these numbers. -/
def cmds (cs : List (Nat × Cmd)) (order : List Nat) : List Cmd := order.filterMap fun i => (cs[i]?).map (·.2)

/-- The handle is only read through at the moment: by readers each of which will reply `ρ`. -/
def Lent (begun : List Nat) (ps : List (Nat × Prog Reply)) (w : World) (ρ : Nat → Reply) (h : Nat) : Prop :=
  ∃ b Γ d, Holds (b.on w.core) d ∧ KnownB b Γ (w.at h) ∧ ∀ i ∈ begun, ∀ q, ps[i]? = some (h, q) → q.ended = false →
    ∃ F, Started b F (fun r => r = .ok (ρ i)) q Γ w.core

/-- `order`: the calls that have had their effect, writing ones when they return, reading ones when they
start.  `ρ`: what they will reply. -/
structure Lin (cs : List (Nat × Cmd)) (s0 : St) (begun : List Nat) (ps : List (Nat × Prog Reply)) (w : World)
    (order : List Nat) (ρ : Nat → Reply) : Prop where
  len : ps.length = cs.length
  core : w.core = (runSt (cmds cs order) s0).core
  blocks : w.core ≠ []
  nodup : order.Nodup
  told : runReplies (cmds cs order) s0 = order.map ρ
  known : ∀ i ∈ order, i < cs.length
  fresh : ∀ i h c, cs[i]? = some (h, c) → i ∉ begun → ps[i]? = some (h, Prog.exec c) ∧ i ∉ order
  taken : ∀ i h c, cs[i]? = some (h, c) → i ∈ begun →
    (∃ q, ps[i]? = some (h, q) ∧ q.ended = false ∧ c.looks = true ∧ i ∈ order) ∨
    (∃ n b d, ps[i]? = some (h, (Prog.after n (Prog.exec c) b).1) ∧ (Prog.after n (Prog.exec c) b).1.ended = false ∧
      c.looks = false ∧ i ∉ order ∧ Holds b d ∧ b.core = w.core ∧ w.at h = (Prog.after n (Prog.exec c) b).2) ∨
    (ps[i]? = some (h, .pure (ρ i)) ∧ i ∈ order)
  hand : ∀ h, (∃ i ∈ begun, ∃ c q, cs[i]? = some (h, c) ∧ ps[i]? = some (h, q) ∧ q.ended = false ∧ c.looks = false) ∨
    Lent begun ps w ρ h

theorem Started.next_core {b : St} {F : List Bytes} {Q : Except Err α → Prop} {p : Prog α} {Γ : Names} {s : St}
    (h : Started b F Q p Γ s.core) (hk : KnownB b Γ s) : (p.next s).2.core = s.core := by
  obtain ⟨h1, Γ0, h2, h4⟩ := h
  cases p with
  | pure a => rfl
  | throw e => rfl
  | step x k =>
    obtain ⟨Γ', g1, g2, g3, g4⟩ := h4 Γ s h2 h1 hk
    exact g3

theorem Started.ended {b : St} {F : List Bytes} {r : α} {p : Prog α} {Γ : Names} {C : List Bytes}
    (h : Started b F (fun x => x = .ok r) p Γ C) (he : p.ended = true) : p = .pure r := by
  obtain ⟨_, Γ0, _, h4⟩ := h
  cases p with
  | pure a =>
    have : (Except.ok a : Except Err α) = .ok r := h4 Γ0 (.refl Γ0)
    cases this
    rfl
  | throw e =>
    have : (Except.error e : Except Err α) = .ok r := h4 Γ0 (.refl Γ0)
    cases this
  | step x k => cases he

theorem cmds_snoc {cs : List (Nat × Cmd)} {i h : Nat} {c : Cmd} (hi : cs[i]? = some (h, c)) (order : List Nat) :
    cmds cs (order ++ [i]) = cmds cs order ++ [c] := by
  unfold cmds
  rw [List.filterMap_append]
  simp [hi]

/-- What a step of one call leaves of the others. -/
theorem Lin.put {cs : List (Nat × Cmd)} {s0 : St} {begun : List Nat} {ps : List (Nat × Prog Reply)} {w : World}
    {order : List Nat} {ρ : Nat → Reply} (S : Lin cs s0 begun ps w order ρ) {i h : Nat} {c : Cmd}
    (hci : cs[i]? = some (h, c)) {p' : Prog Reply} {w' : World} {order' : List Nat} {ρ' : Nat → Reply}
    (hcore : w'.core = (runSt (cmds cs order') s0).core) (hgrow : w.core <+: w'.core) (hnodup : order'.Nodup)
    (htold : runReplies (cmds cs order') s0 = order'.map ρ') (hknown : ∀ j ∈ order', j < cs.length)
    (hsame : ∀ j, j ≠ i → (j ∈ order' ↔ j ∈ order) ∧ ρ' j = ρ j)
    (hothers : ∀ h', h' ≠ h → w'.at h' = { w.at h' with core := w'.core })
    (hlift : ∀ (b : St) d, Holds (b.on w.core) d → ∃ d', Holds (b.on w'.core) d')
    (hwr : ∀ j ∈ begun, j ≠ i → ∀ h' c' q, cs[j]? = some (h', c') → ps[j]? = some (h', q) → q.ended = false →
      c'.looks = false → h' ≠ h ∧ w'.core = w.core)
    (hi : (p'.ended = false ∧ c.looks = true ∧ i ∈ order') ∨
      (∃ n b d, p' = (Prog.after n (Prog.exec c) b).1 ∧ (Prog.after n (Prog.exec c) b).1.ended = false ∧
        c.looks = false ∧ i ∉ order' ∧ Holds b d ∧ b.core = w'.core ∧ w'.at h = (Prog.after n (Prog.exec c) b).2) ∨
      (p' = .pure (ρ' i) ∧ i ∈ order'))
    (hh : (p'.ended = false ∧ c.looks = false) ∨ Lent (i :: begun) (ps.set i (h, p')) w' ρ' h) :
    Lin cs s0 (i :: begun) (ps.set i (h, p')) w' order' ρ' := by
  have hlt : i < ps.length := by rw [S.len]; exact (List.getElem?_eq_some_iff.mp hci).1
  have hget : (ps.set i (h, p'))[i]? = some (h, p') := by simp [hlt]
  have hoth : ∀ j, j ≠ i → (ps.set i (h, p'))[j]? = ps[j]? := fun j hj => by rw [List.getElem?_set_ne (Ne.symm hj)]
  refine ⟨by rw [List.length_set]; exact S.len, hcore, ?_, hnodup, htold, hknown, fun j h' c' hj hn => ?_, fun j h' c' hj hn => ?_, fun h' => ?_⟩
  · intro hnil
    rw [hnil] at hgrow
    exact S.blocks (List.eq_nil_of_prefix_nil hgrow)
  · have hji : j ≠ i := fun e => hn (e ▸ List.mem_cons_self)
    rw [hoth j hji, (hsame j hji).1]
    exact S.fresh j h' c' hj fun hm => hn (List.mem_cons_of_mem _ hm)
  · by_cases hji : j = i
    · subst hji
      rw [hci] at hj
      cases hj
      rcases hi with ⟨e1, e2, e3⟩ | ⟨n, b, d, e0, e⟩ | ⟨e1, e2⟩
      · exact .inl ⟨p', hget, e1, e2, e3⟩
      · exact .inr (.inl ⟨n, b, d, by rw [hget, e0], e⟩)
      · exact .inr (.inr ⟨by rw [hget, e1], e2⟩)
    · have hjb : j ∈ begun := by
        rcases List.mem_cons.mp hn with h | h
        · exact absurd h hji
        · exact h
      rw [hoth j hji, (hsame j hji).1, (hsame j hji).2]
      rcases S.taken j h' c' hj hjb with hr | ⟨n, b, d, e1, e2, e3, e4, e5, e6, e7⟩ | hr
      · exact .inl hr
      · obtain ⟨g1, g2⟩ := hwr j hjb hji h' c' _ hj e1 e2 e3
        refine .inr (.inl ⟨n, b, d, e1, e2, e3, e4, e5, by rw [g2]; exact e6, ?_⟩)
        rw [hothers h' g1, g2]
        exact e7
      · exact .inr (.inr hr)
  · by_cases hh' : h' = h
    · subst hh'
      rcases hh with ⟨e1, e2⟩ | hl
      · exact .inl ⟨i, List.mem_cons_self, c, p', hci, hget, e1, e2⟩
      · exact .inr hl
    · rcases S.hand h' with ⟨j, hjb, c', q, e1, e2, e3, e4⟩ | ⟨b, Γ, d, e1, e2, e3⟩
      · have hji : j ≠ i := by
          rintro rfl
          rw [hci] at e1
          cases e1
          exact hh' rfl
        exact .inl ⟨j, List.mem_cons_of_mem _ hjb, c', q, e1, by rw [hoth j hji]; exact e2, e3, e4⟩
      · obtain ⟨d', hd'⟩ := hlift b d e1
        refine .inr ⟨b, Γ, d', hd', ?_, fun j hj q hq hqe => ?_⟩
        · rw [hothers h' hh']
          exact e2.core hgrow
        · have hji : j ≠ i := by
            rintro rfl
            rw [hget] at hq
            cases hq
            exact hh' rfl
          have hjb : j ∈ begun := by
            rcases List.mem_cons.mp hj with h | h
            · exact absurd h hji
            · exact h
          rw [hoth j hji] at hq
          obtain ⟨F, hF⟩ := e3 j hjb q hq hqe
          rw [(hsame j hji).2]
          exact ⟨F, hF.mono (.refl _) hgrow⟩

/-- The reply of one more call. -/
def tell (ρ : Nat → Reply) (i : Nat) (r : Reply) : Nat → Reply := fun j => if j = i then r else ρ j

theorem told_snoc {cs : List (Nat × Cmd)} {s0 : St} {order : List Nat} {ρ : Nat → Reply} {i h : Nat} {c : Cmd}
    (hci : cs[i]? = some (h, c)) (hn : i ∉ order) (h0 : runReplies (cmds cs order) s0 = order.map ρ) :
    runReplies (cmds cs (order ++ [i])) s0 =
      (order ++ [i]).map (tell ρ i (exec c (runSt (cmds cs order) s0)).1) := by
  rw [cmds_snoc hci, runReplies_append, h0, List.map_append]
  congr 1
  · refine List.map_congr_left fun j hj => ?_
    have : j ≠ i := by rintro rfl; exact hn hj
    simp [tell, this]
  · simp [tell, runReplies, run]

theorem nodup_snoc {order : List Nat} {i : Nat} (h : order.Nodup) (hn : i ∉ order) : (order ++ [i]).Nodup := by
  rw [List.nodup_append]
  exact ⟨h, by simp, fun a hm b hb => by rw [List.mem_singleton.mp hb]; rintro rfl; exact hn hm⟩

theorem tell_same {ρ : Nat → Reply} {order : List Nat} {i : Nat} (r : Reply) (j : Nat) (hj : j ≠ i) :
    (j ∈ order ++ [i] ↔ j ∈ order) ∧ tell ρ i r j = ρ j := by
  simp [tell, hj]

/-- The first step of a call that reads decides its reply. -/
theorem first_step {b : St} {d : Db} {w : World} {h : Nat} {c : Cmd} {Γ : Names} (hd : Holds (b.on w.core) d)
    (hl : c.looks = true) (hk : KnownB b Γ (w.at h)) (hnd : (exec c (b.on w.core)).1 ≠ .error .diverge) :
    (World.next h (Prog.exec c) w).2 = w ∧
    Started b w.core (fun r => r = .ok (exec c (b.on w.core)).1) (World.next h (Prog.exec c) w).1 Γ w.core := by
  obtain ⟨G, hG⟩ := hd.fenced
  have hid := ideal_exec_at hd.wf.rooms hl
  rcases thenB_exec hG hl (by rw [hid]; exact fun e => hnd (by simpa using e)) with ⟨k, hk, hok⟩ | ⟨r, hp, hr⟩
  · rw [hid] at hok
    rw [hk]
    refine ⟨World.set_self w h, List.prefix_refl _, Γ, .refl _, ?_⟩
    refine (hok Γ).imp fun Γ' r hr => ?_
    cases r with
    | error e => exact hr.elim
    | ok a => exact congrArg _ hr
  · rw [hid] at hr
    rw [hp]
    refine ⟨World.set_self w h, List.prefix_refl _, Γ, .refl _, ?_⟩
    intro Γ' _
    exact hr.symm

theorem Lin.step {cs : List (Nat × Cmd)} {s0 : St} {begun : List Nat} {ps : List (Nat × Prog Reply)} {w : World}
    {order : List Nat} {ρ : Nat → Reply} (S : Lin cs s0 begun ps w order ρ) (hs0 : Reachable s0)
    (hc : ∀ x ∈ cs, x.2 ≠ .reopen)
    (hnd : ∀ s, Reachable s → ∀ c : Cmd, c.looks = true → (exec c s).1 ≠ .error .diverge)
    {i h : Nat} {c : Cmd} {p : Prog Reply} (hci : cs[i]? = some (h, c)) (hi : ps[i]? = some (h, p))
    (ha : ∀ j ∈ begun, j ≠ i → ∀ h' c' q, cs[j]? = some (h', c') → ps[j]? = some (h', q) → q.ended = false →
      (c.looks = true ∧ c'.looks = true) ∨ (h' ≠ h ∧ (c'.looks = true ∨ (World.next h p w).2.core = w.core))) :
    ∃ order' ρ', order <+: order' ∧
      Lin cs s0 (i :: begun) (ps.set i (h, (World.next h p w).1)) (World.next h p w).2 order' ρ' := by
  have hlt : i < cs.length := (List.getElem?_eq_some_iff.mp hci).1
  have hlt' : i < ps.length := (List.getElem?_eq_some_iff.mp hi).1
  have hcr : c ≠ .reopen := hc _ (List.mem_of_getElem? hci)
  have hus := hs0.runSt (cmds cs order)
  obtain ⟨du, hu⟩ := hus.holds
  have hself : ∀ x : Prog Reply × World, x.2 = w → ∀ h', h' ≠ h → x.2.at h' = { w.at h' with core := x.2.core } := by
    intro x hx h' _
    rw [hx]
    rfl
  have hoth : ∀ j q, j ≠ i → (ps.set i q)[j]? = ps[j]? := fun j q hj => by rw [List.getElem?_set_ne (Ne.symm hj)]
  -- a call that has returned
  by_cases hdone : i ∈ begun ∧ ps[i]? = some (h, .pure (ρ i)) ∧ i ∈ order
  · obtain ⟨hb, hr, ho⟩ := hdone
    rw [hi] at hr
    cases hr
    have e1 : World.next h (.pure (ρ i) : Prog Reply) w = (.pure (ρ i), w) := by
      show (Prog.pure (ρ i), w.set h (w.at h)) = _
      rw [World.set_self]
    rw [e1]
    have same : ps.set i (h, Prog.pure (ρ i)) = ps := by
      apply List.ext_getElem?
      intro j
      by_cases hj : j = i
      · rw [hj, hi]; simp [hlt']
      · rw [hoth j _ hj]
    show ∃ order' ρ', order <+: order' ∧ Lin cs s0 (i :: begun) (ps.set i (h, Prog.pure (ρ i))) w order' ρ'
    rw [same]
    have hm : ∀ j, j ∈ i :: begun → j ∈ begun := by
      intro j hj
      rcases List.mem_cons.mp hj with rfl | hj
      · exact hb
      · exact hj
    refine ⟨order, ρ, List.prefix_refl _, S.len, S.core, S.blocks, S.nodup, S.told, S.known, fun j h' c' hj hn => ?_, fun j h' c' hj hn => ?_, fun h' => ?_⟩
    · exact S.fresh j h' c' hj fun hm => hn (List.mem_cons_of_mem _ hm)
    · exact S.taken j h' c' hj (hm j hn)
    · rcases S.hand h' with ⟨j, hj, e⟩ | ⟨b, Γ, d, e1, e2, e3⟩
      · exact .inl ⟨j, List.mem_cons_of_mem _ hj, e⟩
      · exact .inr ⟨b, Γ, d, e1, e2, fun j hj => e3 j (hm j hj)⟩
  cases hlk : c.looks with
  | true =>
    -- nobody writes through the handle
    obtain ⟨b, Γ, d, hd, hk, hst⟩ : Lent begun ps w ρ h := by
      rcases S.hand h with ⟨j, hj, c', q, e1, e2, e3, e4⟩ | hl
      · exfalso
        have hji : j ≠ i := by
          rintro rfl
          rw [hci] at e1
          cases e1
          rw [hlk] at e4
          cases e4
        rcases ha j hj hji h c' q e1 e2 e3 with ⟨_, g⟩ | ⟨g, _⟩
        · rw [e4] at g; cases g
        · exact g rfl
      · exact hl
    have hwr : (World.next h p w).2.core = w.core → ∀ j ∈ begun, j ≠ i → ∀ h' c' q, cs[j]? = some (h', c') → ps[j]? = some (h', q) → q.ended = false →
        c'.looks = false → h' ≠ h ∧ (World.next h p w).2.core = w.core := by
      intro hcore j hj hji h' c' q e1 e2 e3 e4
      rcases ha j hj hji h' c' q e1 e2 e3 with ⟨_, g⟩ | ⟨g, _⟩
      · rw [e4] at g; cases g
      · exact ⟨g, hcore⟩
    by_cases hb : i ∈ begun
    · -- a reader under way
      obtain ⟨hne, ho⟩ : p.ended = false ∧ i ∈ order := by
        rcases S.taken i h c hci hb with ⟨q, e1, e2, e3, e4⟩ | ⟨n, b, d, e1, e2, e3, e4⟩ | e
        · rw [hi] at e1; cases e1; exact ⟨e2, e4⟩
        · rw [hlk] at e3; cases e3
        · exact absurd ⟨hb, e⟩ hdone
      obtain ⟨F, hF⟩ := hst i hb p hi hne
      have hcore : (p.next (w.at h)).2.core = w.core := Started.next_core (s := w.at h) hF hk
      obtain ⟨Γ', g1, g2, g3⟩ := Started.next (s := w.at h) hF hk
      have hat : (World.next h p w).2.at h = (p.next (w.at h)).2 := w.set_at h g2.io
      have hcore' : (World.next h p w).2.core = w.core := hcore
      rw [hcore] at g3
      refine ⟨order, ρ, List.prefix_refl _, S.put hci (by rw [hcore']; exact S.core) (by rw [hcore']; exact List.prefix_refl _) S.nodup S.told S.known
        (fun j _ => ⟨Iff.rfl, rfl⟩) (fun h' hh' => w.set_other _ hh') (fun b d hd => ⟨d, by rw [hcore']; exact hd⟩) (hwr hcore') ?_
        (.inr ⟨b, Γ', d, by rw [hcore']; exact hd, by rw [hat]; exact g2, fun j hj q hq hqe => ?_⟩)⟩
      · cases he : (World.next h p w).1.ended with
        | false => exact .inl ⟨rfl, hlk, ho⟩
        | true => exact .inr (.inr ⟨g3.ended he, ho⟩)
      · by_cases hji : j = i
        · subst hji
          rw [List.getElem?_set_self hlt'] at hq
          cases hq
          exact ⟨F, by rw [hcore']; exact g3⟩
        · rw [hoth j _ hji] at hq
          obtain ⟨F', hF'⟩ := hst j (by
            rcases List.mem_cons.mp hj with h | h
            · exact absurd h hji
            · exact h) q hq hqe
          exact ⟨F', by rw [hcore']; exact hF'.mono g1 (List.prefix_refl _)⟩
    · -- its first step
      obtain ⟨e1, ho⟩ := S.fresh i h c hci hb
      rw [hi] at e1
      cases e1
      obtain ⟨hr1, hr2⟩ := call_same hd hu S.core.symm c
      obtain ⟨g1, g2⟩ := first_step hd hlk hk (by rw [hr1]; exact hnd _ hus c hlk)
      rw [hr1] at g2
      have htel : tell ρ i (exec c (runSt (cmds cs order) s0)).1 i = (exec c (runSt (cmds cs order) s0)).1 := by simp [tell]
      have hcore' : (World.next h (Prog.exec c) w).2.core = w.core := by rw [g1]
      refine ⟨order ++ [i], tell ρ i (exec c (runSt (cmds cs order) s0)).1, List.prefix_append _ _, S.put hci ?_ (by rw [hcore']; exact List.prefix_refl _)
        (nodup_snoc S.nodup ho) (told_snoc hci ho S.told) ?_ (tell_same _) (hself _ g1) (fun b d hd => ⟨d, by rw [hcore']; exact hd⟩) (hwr hcore') ?_
        (.inr ⟨b, Γ, d, by rw [hcore']; exact hd, by rw [g1]; exact hk, fun j hj q hq hqe => ?_⟩)⟩
      · rw [hcore', cmds_snoc hci, runSt_snoc, (looks_core hu hlk).1]
        exact S.core
      · intro j hj
        rcases List.mem_append.mp hj with hj | hj
        · exact S.known j hj
        · rw [List.mem_singleton.mp hj]; exact hlt
      · cases he : (World.next h (Prog.exec c) w).1.ended with
        | false => exact .inl ⟨rfl, hlk, by simp⟩
        | true => exact .inr (.inr ⟨by rw [htel]; exact g2.ended he, by simp⟩)
      · by_cases hji : j = i
        · subst hji
          rw [List.getElem?_set_self hlt'] at hq
          cases hq
          exact ⟨w.core, by rw [hcore', htel]; exact g2⟩
        · rw [hoth j _ hji] at hq
          obtain ⟨F', hF'⟩ := hst j (by
            rcases List.mem_cons.mp hj with h | h
            · exact absurd h hji
            · exact h) q hq hqe
          rw [(tell_same (order := order) _ j hji).2]
          exact ⟨F', by rw [hcore']; exact hF'⟩
  | false =>
    -- nobody else is on the handle
    have hno : ∀ j ∈ begun, j ≠ i → ∀ q, ps[j]? = some (h, q) → q.ended = false → False := by
      intro j hj hji q hq hqe
      obtain ⟨⟨h', c'⟩, hcj⟩ : ∃ x, cs[j]? = some x :=
        ⟨_, List.getElem?_eq_getElem (by rw [← S.len]; exact (List.getElem?_eq_some_iff.mp hq).1)⟩
      have hh : h' = h := by
        rcases S.taken j h' c' hcj hj with ⟨_, e, _⟩ | ⟨_, _, _, e, _⟩ | ⟨e, _⟩ <;> (rw [hq] at e; cases e; rfl)
      subst hh
      rcases ha j hj hji h' c' q hcj hq hqe with ⟨g, _⟩ | ⟨g, _⟩
      · rw [hlk] at g; cases g
      · exact g rfl
    obtain ⟨n, b, d, rfl, ho, hd, hbc, hat⟩ : ∃ n b d, p = (Prog.after n (Prog.exec c) b).1 ∧ i ∉ order ∧ Holds b d ∧ b.core = w.core ∧
        w.at h = (Prog.after n (Prog.exec c) b).2 := by
      by_cases hb : i ∈ begun
      · rcases S.taken i h c hci hb with ⟨q, e1, e2, e3, e4⟩ | ⟨n, b, d, e1, e2, e3, e4, e5, e6, e7⟩ | e
        · rw [hlk] at e3; cases e3
        · rw [hi] at e1
          cases e1
          exact ⟨n, b, d, rfl, e4, e5, e6, e7⟩
        · exact absurd ⟨hb, e⟩ hdone
      · obtain ⟨e1, e2⟩ := S.fresh i h c hci hb
        rw [hi] at e1
        cases e1
        rcases S.hand h with ⟨j, hj, c', q, g1, g2, g3, g4⟩ | ⟨b, Γ, d, g1, g2, _⟩
        · exact (hno j hj (fun e => hb (e ▸ hj)) q g2 g3).elim
        · exact ⟨0, w.at h, d, rfl, e2, KnownB.holds (s := w.at h) g2 g1, rfl, rfl⟩
    have hio : (Prog.after (n + 1) (Prog.exec c) b).2.io = Io.good := by
      rw [(after_grows _ _ _).2]; exact hd.io
    have hnx : World.next h (Prog.after n (Prog.exec c) b).1 w =
        ((Prog.after (n + 1) (Prog.exec c) b).1, w.set h (Prog.after (n + 1) (Prog.exec c) b).2) := by
      unfold World.next
      rw [hat, after_succ]
    have hset := World.set_at w h hio
    rw [hnx] at ha ⊢
    have hwr : ∀ j ∈ begun, j ≠ i → ∀ h' c' q, cs[j]? = some (h', c') → ps[j]? = some (h', q) → q.ended = false →
        c'.looks = false → h' ≠ h ∧ (w.set h (Prog.after (n + 1) (Prog.exec c) b).2).core = w.core := by
      intro j hj hji h' c' q e1 e2 e3 e4
      rcases ha j hj hji h' c' q e1 e2 e3 with ⟨g, _⟩ | ⟨g, g' | g'⟩
      · rw [hlk] at g; cases g
      · rw [e4] at g'; cases g'
      · exact ⟨g, g'⟩
    cases he : (Prog.after (n + 1) (Prog.exec c) b).1.ended with
    | false =>
      have hcore : (w.set h (Prog.after (n + 1) (Prog.exec c) b).2).core = w.core := by
        show (Prog.after (n + 1) (Prog.exec c) b).2.core = w.core
        rw [← hbc]
        exact after_still (by rw [hbc]; exact S.blocks) hd.ok c (n + 1) he
      refine ⟨order, ρ, List.prefix_refl _, S.put hci (by rw [hcore]; exact S.core) (by rw [hcore]; exact List.prefix_refl _) S.nodup S.told S.known
        (fun j _ => ⟨Iff.rfl, rfl⟩) (fun h' hh' => w.set_other _ hh') (fun b d hd => ⟨d, by rw [hcore]; exact hd⟩) hwr
        (.inr (.inl ⟨n + 1, b, d, rfl, he, hlk, ho, hd, by rw [hcore]; exact hbc, hset⟩)) (.inl ⟨he, hlk⟩)⟩
    | true =>
      have hdn := after_done hcr he
      rw [hdn] at hset hwr ⊢
      have hbu : (runSt (cmds cs order) s0).core = b.core := by rw [hbc, S.core]
      obtain ⟨hr1, hr2⟩ := call_same hd hu hbu c
      have htel : tell ρ i (exec c (runSt (cmds cs order) s0)).1 i = (exec c (runSt (cmds cs order) s0)).1 := by simp [tell]
      have hnew := (exec_refines hd c).2
      refine ⟨order ++ [i], tell ρ i (exec c (runSt (cmds cs order) s0)).1, List.prefix_append _ _, S.put hci ?_ ?_
        (nodup_snoc S.nodup ho) (told_snoc hci ho S.told) ?_ (tell_same _) (fun h' hh' => w.set_other _ hh') ?_ hwr
        (.inr (.inr ⟨by rw [htel, hr1], by simp⟩)) (.inr ⟨(exec c b).2, fun a => if a < (exec c b).2.heap.length then some a else none, d.next c, ?_, ?_, fun j hj q hq hqe => ?_⟩)⟩
      · rw [cmds_snoc hci, runSt_snoc, ← hr2]
        rfl
      · rw [← hbc]
        exact run_appends [c] b
      · intro j hj
        rcases List.mem_append.mp hj with hj | hj
        · exact S.known j hj
        · rw [List.mem_singleton.mp hj]; exact hlt
      · intro b' d' hd'
        exact ⟨_, hd'.follow hd hbc c⟩
      · show Holds ((exec c b).2.on (exec c b).2.core) _
        rw [hnew.on_self]
        exact hnew
      · have := knownB_start hnew.wf.rooms (exec c b).2.core
        rw [hnew.on_self] at this
        rw [hset]
        exact this
      · exfalso
        by_cases hji : j = i
        · subst hji
          rw [List.getElem?_set_self hlt'] at hq
          cases hq
          cases hqe
        · rw [hoth j _ hji] at hq
          exact hno j (by
            rcases List.mem_cons.mp hj with h | h
            · exact absurd h hji
            · exact h) hji q hq hqe

theorem Lin.interleave {cs : List (Nat × Cmd)} {s0 : St} (hs0 : Reachable s0) (hc : ∀ x ∈ cs, x.2 ≠ .reopen)
    (hnd : ∀ s, Reachable s → ∀ c : Cmd, c.looks = true → (exec c s).1 ≠ .error .diverge) (sched : List Nat) :
    ∀ {begun : List Nat} {ps : List (Nat × Prog Reply)} {w : World} {order : List Nat} {ρ : Nat → Reply},
    Lin cs s0 begun ps w order ρ → World.orderly cs begun sched ps w = true →
    ∃ begun' order' ρ', order <+: order' ∧
      Lin cs s0 begun' (World.interleave sched ps w).1 (World.interleave sched ps w).2 order' ρ' ∧
      (∀ i < cs.length, i ∈ begun' ↔ i ∈ begun ∨ i ∈ sched) ∧
      -- and so at any moment in between
      ∀ a b, sched = a ++ b → ∃ begunₐ orderₐ ρₐ, orderₐ <+: order' ∧
        Lin cs s0 begunₐ (World.interleave a ps w).1 (World.interleave a ps w).2 orderₐ ρₐ ∧
        (∀ i < cs.length, i ∈ begunₐ ↔ i ∈ begun ∨ i ∈ a) := by
  induction sched with
  | nil =>
    intro begun ps w order ρ S _
    refine ⟨begun, order, ρ, List.prefix_refl _, S, fun i _ => by simp, fun a b hab => ?_⟩
    obtain ⟨rfl, rfl⟩ : a = [] ∧ b = [] := by simpa using hab.symm
    exact ⟨begun, order, ρ, List.prefix_refl _, S, fun i _ => by simp⟩
  | cons i is ih =>
    intro begun ps w order ρ S ho
    unfold World.orderly at ho
    have zero : ∀ order', order <+: order' → ∃ begunₐ orderₐ ρₐ, orderₐ <+: order' ∧
        Lin cs s0 begunₐ (World.interleave [] ps w).1 (World.interleave [] ps w).2 orderₐ ρₐ ∧
        (∀ j < cs.length, j ∈ begunₐ ↔ j ∈ begun ∨ j ∈ ([] : List Nat)) :=
      fun order' h => ⟨begun, order, ρ, h, S, fun j _ => by simp⟩
    by_cases hi : i < cs.length
    · obtain ⟨⟨h, c⟩, hci⟩ : ∃ x, cs[i]? = some x := ⟨_, List.getElem?_eq_getElem hi⟩
      obtain ⟨p, hp⟩ : ∃ p, ps[i]? = some (h, p) := by
        by_cases hb : i ∈ begun
        · rcases S.taken i h c hci hb with ⟨_, e, _⟩ | ⟨_, _, _, e, _⟩ | ⟨e, _⟩ <;> exact ⟨_, e⟩
        · exact ⟨_, (S.fresh i h c hci hb).1⟩
      simp only [hp, hci, Bool.and_eq_true] at ho
      obtain ⟨o1, ρ1, hpre, S1⟩ := S.step hs0 hc hnd hci hp (by
        intro j hj hji h' c' q e1 e2 e3
        have := List.all_eq_true.mp ho.1 j hj
        simp only [e1, e2, Prog.inFlight_ended, e3] at this
        simpa [hji] using this)
      obtain ⟨b, o, ρ', g0, g1, g2, g3⟩ := ih S1 ho.2
      have mem : ∀ {B : List Nat} {l : List Nat}, (∀ j < cs.length, j ∈ B ↔ j ∈ i :: begun ∨ j ∈ l) →
          ∀ j < cs.length, j ∈ B ↔ j ∈ begun ∨ j ∈ i :: l := by
        intro B l hB j hj
        rw [hB j hj, List.mem_cons, List.mem_cons]
        constructor
        · rintro ((h | h) | h)
          · exact .inr (.inl h)
          · exact .inl h
          · exact .inr (.inr h)
        · rintro (h | h | h)
          · exact .inl (.inr h)
          · exact .inl (.inl h)
          · exact .inr h
      refine ⟨b, o, ρ', hpre.trans g0, by simpa only [World.interleave, hp] using g1, mem g2, fun a b' hab => ?_⟩
      cases a with
      | nil => exact zero o (hpre.trans g0)
      | cons i' a =>
        simp only [List.cons_append, List.cons.injEq] at hab
        obtain ⟨rfl, hab⟩ := hab
        obtain ⟨ba, oa, ρa, e1, e2, e3⟩ := g3 a b' hab
        exact ⟨ba, oa, ρa, e1, by simpa only [World.interleave, hp] using e2, mem e3⟩
    · have hp : ps[i]? = none := by rw [List.getElem?_eq_none_iff, S.len]; omega
      simp only [hp] at ho
      obtain ⟨b, o, ρ', g0, g1, g2, g3⟩ := ih S ho
      have mem : ∀ {B : List Nat} {l : List Nat}, (∀ j < cs.length, j ∈ B ↔ j ∈ begun ∨ j ∈ l) →
          ∀ j < cs.length, j ∈ B ↔ j ∈ begun ∨ j ∈ i :: l := by
        intro B l hB j hj
        have : j ≠ i := by omega
        rw [hB j hj, List.mem_cons]
        simp [this]
      refine ⟨b, o, ρ', g0, by simpa only [World.interleave, hp] using g1, mem g2, fun a b' hab => ?_⟩
      cases a with
      | nil => exact zero o g0
      | cons i' a =>
        simp only [List.cons_append, List.cons.injEq] at hab
        obtain ⟨rfl, hab⟩ := hab
        obtain ⟨ba, oa, ρa, e1, e2, e3⟩ := g3 a b' hab
        exact ⟨ba, oa, ρa, e1, by simpa only [World.interleave, hp] using e2, mem e3⟩

/-! ## Leaving out calls that read -/

theorem leave_out {cs : List (Nat × Cmd)} {ρ : Nat → Reply} (P : Nat → Bool)
    (hP : ∀ i h c, cs[i]? = some (h, c) → P i = false → c.looks = true) :
    ∀ (order : List Nat) {s s2 : St} {d d2 : Db}, Holds s d → Holds s2 d2 → s2.core = s.core →
    (∀ i ∈ order, i < cs.length) → runReplies (cmds cs order) s = order.map ρ →
    runReplies (cmds cs (order.filter P)) s2 = (order.filter P).map ρ ∧
    (runSt (cmds cs (order.filter P)) s2).core = (runSt (cmds cs order) s).core := by
  intro order
  induction order with
  | nil => exact fun _ _ hc _ _ => ⟨rfl, hc⟩
  | cons i is ih =>
    intro s s2 d d2 hs hs2 hc hk ht
    obtain ⟨⟨h, c⟩, hci⟩ : ∃ x, cs[i]? = some x := ⟨_, List.getElem?_eq_getElem (hk i (by simp))⟩
    have hcons : ∀ l, cmds cs (i :: l) = c :: cmds cs l := by
      intro l
      unfold cmds
      simp [hci]
    rw [hcons] at ht ⊢
    have ht1 : (exec c s).1 = ρ i ∧ runReplies (cmds cs is) (exec c s).2 = is.map ρ := by
      have : (exec c s).1 :: runReplies (cmds cs is) (exec c s).2 = ρ i :: is.map ρ := ht
      simpa using this
    have hn := (exec_refines hs c).2
    cases hp : P i with
    | false =>
      rw [List.filter_cons, hp]
      exact ih hn hs2 (hc.trans (looks_core hs (hP i h c hci hp)).1.symm) (fun j hj => hk j (by simp [hj])) ht1.2
    | true =>
      rw [List.filter_cons, hp]
      simp only [if_true]
      rw [hcons]
      obtain ⟨r1, r2⟩ := call_same hs hs2 hc c
      obtain ⟨g1, g2⟩ := ih hn (exec_refines hs2 c).2 r2.symm (fun j hj => hk j (by simp [hj])) ht1.2
      refine ⟨?_, g2⟩
      show (exec c s2).1 :: runReplies (cmds cs (is.filter P)) (exec c s2).2 = ρ i :: _
      rw [g1, ← r1, ht1.1]

theorem Holds.agree {s s2 : St} {d d2 : Db} (h : Holds s d) (h2 : Holds s2 d2) (hc : s2.core = s.core) : Holds s d2 := by
  have h1 := h.follow h2 hc .version
  rw [(looks_core h2 rfl).1, hc] at h1
  exact h1

end Hyperbee
