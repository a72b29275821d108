import Verif.Proof.Handles
/-!
# A stream while the core grows
-/

namespace Hyperbee

/-- A call that only reads. -/
def Cmd.reads : Cmd → Bool
  | .version | .get _ | .traverse _ _ => true
  | _ => false

theorem replyOf_snd (m : M α) (f : α → Reply) (s : St) : (replyOf m f s).2 = (m s).2 := by
  unfold replyOf
  split <;> simp_all

theorem Vw.grow {s : St} {h : Nat} {n : T} (v : Vw s h n) (ext : List Bytes) :
    Vw { s with core := s.core ++ ext } h n := by
  have hlt : ∀ q ∈ n.flat, q < s.core.length := fun q hq => by
    obtain ⟨b, hb⟩ := v.dfd q hq
    exact blockAt_lt hb
  refine ⟨v.rep.mono fun r _ m hm => ?_, v.coh.grow v.rep.seq_lt ext, v.shape, ?_, ?_⟩
  · show nodeAt (s.core ++ ext) r = some m
    rw [nodeAt_append (nodeAt_lt hm)]; exact hm
  · have := v.srt
    refine List.Pairwise.imp_of_mem ?_ this
    intro a b ha hb hab
    show keyOf (s.core ++ ext) a < keyOf (s.core ++ ext) b
    rw [keyOf_append (hlt a ha), keyOf_append (hlt b hb)]; exact hab
  · intro q hq
    obtain ⟨b, hb⟩ := v.dfd q hq
    exact ⟨b, blockAt_append_some hb ext⟩

theorem mem_piece {ks : List Nat} {ts : List T} {j q : Nat} (h : q ∈ piece ks ts j) : q ∈ flatL ks ts := by
  unfold piece at h
  split at h
  · cases ht : ts[j / 2]? with
    | none => rw [ht] at h; simp at h
    | some t => rw [ht] at h; exact mem_flatL (.inr ⟨t, List.mem_of_getElem? ht, h⟩)
  · cases hk : ks[j / 2]? with
    | none => rw [hk] at h; simp at h
    | some k =>
      rw [hk] at h
      simp at h
      subst h
      exact mem_flatL (.inl (List.mem_of_getElem? hk))

theorem mem_flatIdx {rev : Bool} {ks : List Nat} {ts : List T} {is : List Nat} {q : Nat}
    (h : q ∈ flatIdx rev ks ts is) : q ∈ flatL ks ts := by
  obtain ⟨j, _, h⟩ := List.mem_flatMap.mp h
  unfold pieceD at h
  split at h
  · exact mem_piece (List.mem_reverse.mp h)
  · exact mem_piece h

theorem Rest.congr {p p' : Nat → Bool} {ks : List Nat} {ts : List T} {is : List Nat} (h : Rest p ks ts is)
    (hp : ∀ q ∈ flatL ks ts, p' q = p q) : Rest p' ks ts is := by
  refine ⟨List.Pairwise.imp ?_ h.cut, h.valid⟩
  intro j j' H hj k hk hpk x hx
  rw [hp x (mem_piece hx)]
  refine H hj k hk ?_ x hx
  rw [← hp k (mem_piece hk)]; exact hpk

theorem Strm.grow {s : St} {conf : TraverseConfig} {fs : List Frame} {n : T} {out : List Nat} {fuel : Nat}
    (h : Strm s conf fs n out fuel) (ext : List Bytes) :
    Strm { s with core := s.core ++ ext } conf fs n out fuel := by
  have key : ∀ {h' : Nat} {m : T}, Vw s h' m → ∀ q ∈ m.flat, keyOf (s.core ++ ext) q = keyOf s.core q := by
    intro h' m v q hq
    obtain ⟨b, hb⟩ := v.dfd q hq
    exact keyOf_append (blockAt_lt hb) ext
  have filt : ∀ {h' : Nat} {m : T} {l : List Nat}, Vw s h' m → (∀ q ∈ l, q ∈ m.flat) →
      (l.filter fun q => conf.inBounds (keyOf (s.core ++ ext) q)) = l.filter fun q => conf.inBounds (keyOf s.core q) := by
    intro h' m l v hl
    refine List.filter_congr fun q hq => ?_
    rw [key v q (hl q hq)]
  have idx : ∀ {m : T} {is : List Nat}, ∀ q ∈ flatIdx conf.reversed m.keys m.kids is, q ∈ m.flat := by
    intro m is q hq
    rw [T.flat_eq]; exact mem_flatIdx hq
  have rest : ∀ {h' : Nat} {m : T} {is : List Nat}, Vw s h' m →
      Rest (fun q => conf.inBounds (keyOf s.core q)) m.keys m.kids is →
      Rest (fun q => conf.inBounds (keyOf (s.core ++ ext) q)) m.keys m.kids is := by
    intro h' m is v hr
    refine hr.congr fun q hq => ?_
    rw [key v q (by rw [T.flat_eq]; exact hq)]
  induction h with
  | setup v a h1 h2 h3 h4 h5 =>
    have := Strm.setup (conf := conf) (v.grow ext) a h1 h2 h3 h4 h5
    simp only [] at this
    rw [filt v (fun q hq => by unfold dirFlat at hq; split at hq <;> simpa using hq)] at this
    exact this
  | iter v a h1 h2 h3 h4 h5 h6 =>
    have := Strm.iter (conf := conf) (v.grow ext) a h1 h2 h3 h4 h5 (rest v h6)
    simp only [] at this
    rw [filt v idx] at this; exact this
  | key v a h1 h2 h3 h4 h5 h6 =>
    have := Strm.key (conf := conf) (v.grow ext) a h1 h2 h3 h4 h5 (rest v h6)
    simp only [] at this
    rw [filt v idx] at this; exact this
  | child v a h1 h2 h3 h4 h5 ht h6 =>
    have := Strm.child (conf := conf) (v.grow ext) a h1 h2 h3 h4 h5 ht (rest v h6)
    simp only [] at this
    rw [filt v idx] at this; exact this
  | sub v a h1 h2 h3 h4 h5 hm h6 _ ih =>
    have := Strm.sub (conf := conf) (v.grow ext) a h1 h2 h3 h4 h5 hm (rest v h6) ih
    simp only [] at this
    rw [filt v idx] at this; exact this

/-- Reading calls only add to the cache. -/
theorem Holds.read_ext {s : St} {d : Db} (h : Holds s d) {c : Cmd} (hc : c.reads = true) : Ext s (exec c s).2 := by
  cases c with
  | version => exact Ext.refl h.wf
  | get k =>
    show Ext s (replyOf (Hyperbee.get k) .got s).2
    rw [replyOf_snd]
    rcases h.store with hb | ⟨H, t, ht, hco, _⟩
    · have hroot : getRoot false s = (.ok none, s) := by
        rcases Nat.lt_or_ge s.core.length 1 with hl | hl
        · exact getRoot_zero_false (by omega)
        · exact getRoot_one (by have := hb.1; omega) false
      unfold Hyperbee.get
      rw [bind_ok hroot]
      exact Ext.refl h.wf
    · obtain ⟨m, pre, post, s', h1, e1, _⟩ := get_run ht h.wf hco k
      rw [h1]; exact e1
  | traverse b sched =>
    show Ext s (replyOf (traverseSession b sched) _ s).2
    rw [replyOf_snd]
    unfold traverseSession
    cases hb : b.build with
    | error e => exact Ext.refl h.wf
    | ok conf =>
      simp only []
      rcases h.store with hbare | ⟨H, t, ht, hco, _⟩
      · rw [bind_error (collect_bare hbare sched conf)]; exact Ext.refl h.wf
      · obtain ⟨xs, rest, fin, s', h1, e1, _⟩ := collect_run ht h.wf hco (build_sound hb) sched
        rw [bind_ok h1]; exact e1
  | _ => cases hc

/-- The only calls made through handle `h` are reads. -/
def quiet (h : Nat) : Act → Bool
  | .poll _ => true
  | .call i c => i != h || c.reads

theorem Ext.holds {s s' : St} {d : Db} (e : Ext s s') (h : Holds s d) : Holds s' d := by
  refine ⟨e.wf, by rw [e.io]; exact h.ok, by rw [e.core]; exact h.ver, ?_⟩
  rcases h.store with hb | ⟨H, t, ht, hc, hcon⟩
  · left; rw [e.core]; exact hb
  · right; exact ⟨H, t, by rw [e.core]; exact ht, e.coh h.wf hc, by rw [e.core]; exact hcon⟩

theorem World.All.set {w : World} {d : Db} (hw : w.All d) {i : Nat} {s : St} (e : Ext (w.at i) s) : (w.set i s).All d := by
  have hs := e.holds (hw i)
  intro j
  by_cases hj : j = i
  · subst hj; rw [w.set_at j hs.io]; exact hs
  · rw [w.set_other s hj, e.core]
    exact hw j

theorem keyOf_prefix {c c' : List Bytes} (h : c <+: c') {q : Nat} (hq : q < c.length) : kvOf c' q = kvOf c q := by
  obtain ⟨ext, rfl⟩ := h
  simp only [kvOf, keyOf_append hq, valOf_append hq]

/-- A stream consumed while other handles write yields what it would have yielded at once. -/
theorem watch_run {c : List Bytes} {conf : TraverseConfig} (hS : conf.Sound) {n : T} (h : Nat) :
    ∀ (as : List Act) (w : World) (d : Db) (fs : List Frame) (out : List Nat) (fuel : Nat),
    w.All d → c <+: w.core → (∀ q ∈ out, q < c.length) → Strm (w.at h) conf fs n out fuel →
    as.all (quiet h) = true →
    ∃ xs rest fin, (World.watch h as fs w).1 = .ok (xs.map (fun q => .ok (kvOf c q)), fin) ∧ out = xs ++ rest ∧
      (fin = none → rest = []) ∧ (fuel ≤ (as.countP fun a => a matches .poll true) → fin = none) := by
  intro as
  induction as with
  | nil =>
    intro w d fs out fuel _ _ _ h _
    exact ⟨[], out, some fs, rfl, rfl, by simp, fun hf => by have := h.pos; simp at hf; omega⟩
  | cons a as ih =>
    intro w d fs out fuel hw hpre hout hst hq
    rw [List.all_cons, Bool.and_eq_true] at hq
    obtain ⟨hqa, hqs⟩ := hq
    cases a with
    | call i cmd =>
      have hcore : (w.exec i cmd).2.core = (Hyperbee.exec cmd (w.at i)).2.core := rfl
      have hpre' : w.core <+: (Hyperbee.exec cmd (w.at i)).2.core := run_appends [cmd] (w.at i)
      have hst' : Strm ((w.exec i cmd).2.at h) conf fs n out fuel := by
        by_cases hi : h = i
        · subst hi
          have hr : cmd.reads = true := by simpa [quiet] using hqa
          have hsnd := (exec_refines (hw h) cmd).2
          rw [w.exec_at h cmd hsnd]
          exact hst.ext (hw h).wf ((hw h).read_ext hr)
        · rw [w.exec_other cmd hi]
          obtain ⟨ext, hx⟩ := hpre'
          have := hst.grow ext
          rw [show (w.at h).core ++ ext = w.core ++ ext from rfl, hx] at this
          exact this
      obtain ⟨xs, rest, fin, r1, r2, r3, r4⟩ := ih (w.exec i cmd).2 (d.next cmd) fs out fuel (hw.exec i cmd)
        (hpre.trans hpre') hout hst' hqs
      exact ⟨xs, rest, fin, r1, r2, r3, fun hf => r4 (by simpa using hf)⟩
    | poll r =>
      obtain ⟨p, fs', s1, h1, e1, hp⟩ := poll_run hS hst (hw h).wf r
      have hw1 := hw.set e1
      have hat : (w.set h s1).at h = s1 := w.set_at h (e1.holds (hw h)).io
      have hcore1 : (w.set h s1).core = w.core := e1.core
      unfold World.watch
      rw [h1]
      cases p with
      | pending woken waiting =>
        obtain ⟨_, hp⟩ := hp
        have key : ∃ fuel', Strm s1 conf fs' n out fuel' ∧ (if r then 1 else 0) + fuel' ≤ fuel := by
          cases waiting with
          | true =>
            rw [if_pos rfl] at hp
            obtain ⟨rfl, rfl, rfl⟩ := hp
            exact ⟨fuel, hst, by simp⟩
          | false =>
            rw [if_neg (by simp)] at hp
            obtain ⟨f', hlt, hst⟩ := hp
            exact ⟨f', hst, by split <;> omega⟩
        obtain ⟨f', hst', hle⟩ := key
        obtain ⟨xs, rest, fin, r1, r2, r3, r4⟩ := ih (w.set h s1) d fs' out f' hw1 (by rw [hcore1]; exact hpre) hout
          (by rw [hat]; exact hst') hqs
        refine ⟨xs, rest, fin, r1, r2, r3, fun hf => r4 ?_⟩
        rw [List.countP_cons] at hf
        cases r <;> simp at hf hle ⊢ <;> omega
      | ready item woken =>
        cases item with
        | none => exact ⟨[], out, none, rfl, rfl, fun _ => hp.2, fun _ => rfl⟩
        | some it =>
          obtain ⟨x, a⟩ := it
          obtain ⟨q, out', f', rfl, rfl, hlt, hst', _⟩ := hp
          obtain ⟨xs, rest, fin, r1, r2, r3, r4⟩ := ih (w.set h s1) d fs' out' f' hw1 (by rw [hcore1]; exact hpre)
            (fun q hq => hout q (List.mem_cons_of_mem _ hq)) (by rw [hat]; exact hst') hqs
          refine ⟨q :: xs, rest, fin, ?_, by rw [r2]; rfl, r3, fun hf => r4 ?_⟩
          · simp only []
            generalize World.watch h as fs' (w.set h s1) = y at r1
            obtain ⟨y1, y2⟩ := y
            simp only at r1
            rw [r1]
            simp only [List.map_cons]
            rw [show (⟨q, keyOf (w.at h).core q, valOf (w.at h).core q⟩ : KeyValueData) = kvOf c q from
              keyOf_prefix hpre (hout q (by simp))]
          · rw [List.countP_cons] at hf
            cases r <;> simp at hf ⊢ <;> omega

end Hyperbee
