import Verif.Proof.Flaky
/-!
# Streams whose reads fail

A poll whose read fails yields the error.  The stream goes on past the key or child it could not read;
or, if it could not find its place in a node, it panics when polled again.
-/

namespace Hyperbee

theorem Flakes.tryResult {p : Prog α} {s t : St} {r : Except Err (Except Err α)} (h : Flakes (Prog.tryResult p) s r t) :
    ∃ x, Flakes p s x t ∧ ((∀ a, x = .ok a → r = .ok (.ok a)) ∧ ∀ e, x = .error e → ReadErr e → r = .ok (.error e)) := by
  induction p generalizing s with
  | pure a => cases h; exact ⟨_, .pure, fun a h => by cases h; rfl, fun e h => by cases h⟩
  | throw e =>
    have hx : Flakes (.throw e : Prog α) s (.error e) t := by
      cases e <;> cases h <;> exact .throw
    refine ⟨_, hx, fun a h => by (cases h), fun e' he hr => ?_⟩
    cases he
    cases hr <;> cases h <;> rfl
  | step x k ih =>
    cases h with
    | step h =>
      obtain ⟨y, h1, h2⟩ := ih _ h
      exact ⟨y, .step h1, h2⟩
    | fault hf h =>
      rename_i f y
      obtain ⟨y, h1, h2⟩ := ih _ h
      exact ⟨y, .fault (f := f) hf h1, h2⟩

/-- What comes of trying an operation that would succeed. -/
theorem Frail.tried {p : Prog α} {m : M α} (hp : Does p m) (h : Frail α p) {s s' t : St} {a : α} (hw : SWF s)
    (hm : m s = (.ok a, s')) {r : Except Err (Except Err α)} (hfl : Flakes (Prog.tryResult p) s r t) :
    (r = .ok (.ok a) ∧ t = s') ∨ ∃ e, ReadErr e ∧ r = .ok (.error e) ∧ Ext s t := by
  obtain ⟨x, h1, h2, h3⟩ := hfl.tryResult
  have hrun : p.run s = (.ok a, s') := by rw [← hm]; exact congrFun hp s
  rcases (h s a s' hw hrun).2 _ _ h1 with ⟨rfl, h4⟩ | ⟨e, h4, rfl, h5⟩
  · exact .inl ⟨h2 a rfl, h4⟩
  · exact .inr ⟨e, h4, h3 e rfl h4, h5⟩

/-- A stream that failed to build its index iterator. -/
inductive Dead : List Frame → Prop where
  | last {f : Frame} {x : Nat × Nat} : f.nextKey = none → f.nextChild = none → f.nkc = some x → f.iter = none →
      f.iterFut = some true → Dead [f]
  | sub {f c : Frame} {cs : List Frame} : f.nextKey = none → f.nextChild = none → Dead (c :: cs) → Dead (f :: c :: cs)

theorem Dead.poll {fs : List Frame} (h : Dead fs) (ready : Bool) :
    Prog.poll ready fs = .throw (.panic "traverse.rs:402 `async fn` resumed after completion") := by
  induction h with
  | last h1 h2 h3 h4 h5 =>
    unfold Prog.poll Prog.pollSetup
    simp only [h1, h2, h3, h4, h5]
  | sub h1 h2 _ ih =>
    unfold Prog.poll
    simp only [h1, h2, ih]
    rfl

/-- The items a failed read gives, after which the stream goes on. -/
def Skipped (x : Err) : Prop := ReadErr x ∨ ∃ e, ReadErr e ∧ x = .getChildInTraverse e

/-- The items a failed read gives, after which the stream is no use any more. -/
def Broken (x : Err) : Prop := ∃ e, ReadErr e ∧ x = .buildIteratorInTraverse e

/-- What else a poll may do when reads fail. -/
def PollFails (s t : St) (conf : TraverseConfig) (n : T) (out : List Nat) (fuel : Nat)
    (r : Except Err (PollR × List Frame)) : Prop :=
  Ext s t ∧ ∃ x a fs', r = .ok (.ready (some (.error x, a)) false, fs') ∧
    ((Skipped x ∧ ∃ lost out' fuel', out = lost ++ out' ∧ fuel' < fuel ∧ Strm t conf fs' n out' fuel') ∨
      (Broken x ∧ Dead fs'))

theorem pollSetup_flakes {s t : St} (hw : SWF s) {conf : TraverseConfig} (hS : conf.Sound) {f : Frame} {h : Nat} {n : T}
    {k : Nat} (v : Vw s h n) (ha : addrOf s n.ref = some f.root) (hconf : f.config = conf)
    (hk : f.nextKey = none) (hc : f.nextChild = none) (hi : f.iter = none)
    (hp : (k = 3 ∧ f.nkcFut = false ∧ f.nkc = none ∧ f.iterFut = none) ∨
        (k = 2 ∧ f.nkcFut = true ∧ f.nkc = none ∧ f.iterFut = none) ∨
        (k = 1 ∧ f.nkc = some (n.keys.length, n.kids.length) ∧ f.iterFut = none) ∨
        (k = 0 ∧ f.nkc = some (n.keys.length, n.kids.length) ∧ f.iterFut = some false)) (ready : Bool)
    {r : Except Err (PollR × List Frame)} (hfl : Flakes (Prog.pollSetup ready f) s r t) (out : List Nat) (fuel : Nat) :
    (r, t) = (Prog.pollSetup ready f).run s ∨ PollFails s t conf n out fuel r := by
  obtain ⟨cf, rt, nf, nk, itf, it, nky, nch⟩ := f
  simp only at ha hconf hk hc hi hp
  subst hconf hk hc hi
  unfold Prog.pollSetup at hfl ⊢
  rcases hp with ⟨rfl, p1, p2, p3⟩ | ⟨rfl, p1, p2, p3⟩ | ⟨rfl, p2, p3⟩ | ⟨rfl, p2, p3⟩
  · subst p1 p2 p3
    refine .inl (NoFetch.flakes ?_ hfl).symm
    exact True.intro
  · subst p1 p2 p3
    refine .inl (NoFetch.flakes ?_ hfl).symm
    dsimp only
    split
    · exact True.intro
    split
    · exact True.intro
    · exact (noFetch_readNode _).bind fun _ => ((noFetch_readNode _).under _ _).bind fun _ => True.intro
  · subst p2 p3
    refine .inl (NoFetch.flakes ?_ hfl).symm
    exact True.intro
  · subst p2 p3
    cases ready with
    | false =>
      refine .inl (NoFetch.flakes ?_ hfl).symm
      exact True.intro
    | true =>
      simp only [Bool.true_eq_false, if_false] at hfl ⊢
      have hn := v.heap ha
      obtain ⟨is, s', h1, e1, hwalk⟩ := makeIter_run hw hn cf hS (ts := n.kids)
        (by cases n; simp [T.node, T.kids]) (by cases n; exact v.len) (by cases n; exact v.srt)
        (by cases n; exact v.srtKeys) (by cases n; exact v.dfdKeys)
      have hlen : n.node.keys.length = n.keys.length ∧ n.node.children.length = n.kids.length := by
        cases n; simp [T.node, T.keys, T.kids]
      rw [hlen.1, hlen.2] at h1
      have htry := fun {r t} hf => Frail.tried (r := r) (t := t) (does_makeIter cf rt n.keys.length n.kids.length)
        (frail_acts.makeIter_ _ _ _ _) hw h1 hf
      have hdo : (Prog.tryResult (Prog.makeChildKeyIndexIter cf rt n.keys.length n.kids.length)).run s = (.ok (.ok is), s') := by
        rw [Does.tryResult (does_makeIter cf rt n.keys.length n.kids.length)]
        exact tryResult_ok h1
      rw [Prog.run_bind, bind_ok hdo]
      rcases hfl.bind with ⟨y, u, h2, h3⟩ | ⟨e, h2, rfl⟩
      · rcases htry h2 with ⟨h4, rfl⟩ | ⟨e, h4, h5, h6⟩
        · cases h4
          cases h3
          exact .inl rfl
        · cases h5
          cases h3
          exact .inr ⟨h6, _, _, _, rfl, .inr ⟨⟨e, h4, rfl⟩, .last rfl rfl rfl rfl rfl⟩⟩
      · rcases htry h2 with ⟨h4, _⟩ | ⟨_, _, h5, _⟩
        · cases h4
        · cases h5

theorem poll_flakes {conf : TraverseConfig} (hS : conf.Sound) {s : St} {fs : List Frame} {n : T}
    {out : List Nat} {fuel : Nat} (h : Strm s conf fs n out fuel) (hw : SWF s) (ready : Bool) {t : St}
    {r : Except Err (PollR × List Frame)} (hfl : Flakes (Prog.poll ready fs) s r t) :
    (r, t) = (Prog.poll ready fs).run s ∨ PollFails s t conf n out fuel r := by
  induction h generalizing r t with
  | setup v ha h1 h2 h3 h4 h5 =>
    unfold Prog.poll at hfl ⊢
    simp only [h2, h3] at hfl ⊢
    exact pollSetup_flakes hw hS v ha h1 h2 h3 h4 h5 ready hfl _ _
  | @iter f h n is x v ha h1 h2 h3 h4 h5 h6 =>
    refine .inl (NoFetch.flakes ?_ hfl).symm
    unfold Prog.poll Prog.pollSetup
    simp only [h2, h3, h4, h5]
    cases is with
    | nil => exact True.intro
    | cons j is => dsimp only; split <;> exact True.intro
  | @key f h n i is x v ha h1 h2 h3 h4 h5 h6 =>
    obtain ⟨cf, rt, nf, nk, itf, it, nky, nch⟩ := f
    simp only at ha h1 h2 h3 h4 h5
    subst h1 h2 h3 h4 h5
    cases ready with
    | false =>
      refine .inl (NoFetch.flakes ?_ hfl).symm
      exact True.intro
    | true =>
      unfold Prog.poll at hfl ⊢
      simp only [Bool.true_eq_false, Bool.false_eq_true, if_false] at hfl ⊢
      have hv := h6.valid _ (List.mem_cons_self ..)
      rw [if_neg (by omega), show (2 * i + 1) / 2 = i by omega] at hv
      have hn := v.heap ha
      have hkeys : n.node.keys = n.keys := by cases n; rfl
      have hq : n.keys[i]? = some n.keys[i] := List.getElem?_eq_getElem hv
      obtain ⟨b, hb⟩ := v.dfdKeys n.keys[i] (List.getElem_mem hv)
      obtain ⟨s', h7, e7⟩ := getKeyValue_run hw hn (i := i) (q := n.keys[i]) (by rw [hkeys]; exact hq) hb
      have htry := fun {r t} hf => Frail.tried (r := r) (t := t) (does_getKeyValue rt i)
        (frail_acts.getKeyValue _ _) hw h7 hf
      have hdo : (Prog.tryResult (Prog.getKeyValue rt i)).run s = (.ok (.ok ⟨n.keys[i], keyOf s.core n.keys[i], valOf s.core n.keys[i]⟩), s') := by
        rw [Does.tryResult (does_getKeyValue rt i)]
        exact tryResult_ok h7
      rw [Prog.run_bind, bind_ok hdo]
      have hpc : piece n.keys n.kids (2 * i + 1) = [n.keys[i]] := by
        rw [piece, if_neg (by omega), show (2 * i + 1) / 2 = i by omega, hq]; rfl
      have hpd : flatIdx cf.reversed n.keys n.kids ((2 * i + 1) :: is)
          = [n.keys[i]] ++ flatIdx cf.reversed n.keys n.kids is := by
        simp only [flatIdx, List.flatMap_cons, pieceD, hpc]
        cases cf.reversed <;> simp
      rcases hfl.bind with ⟨y, u, h2, h3⟩ | ⟨e, h2, rfl⟩
      · rcases htry h2 with ⟨h4, rfl⟩ | ⟨e, h4, h5, h6'⟩
        · cases h4
          left
          refine ((NoFetch.flakes ?_ h3)).symm
          dsimp only
          split <;> exact True.intro
        · cases h5
          cases h3
          refine .inr ⟨h6', _, _, _, rfl, .inl ⟨.inl h4, [n.keys[i]].filter fun q => cf.inBounds (keyOf s.core q), _, _, ?_, ?_,
            Strm.iter (s := t) (conf := cf) (f := ⟨cf, rt, nf, some x, itf, some is, none, none⟩)
              (v.ext hw h6') (h6'.addr ha) rfl rfl rfl rfl rfl (by rw [h6'.core]; exact h6.tail)⟩⟩
          · rw [hpd, List.filter_append, h6'.core]
          · omega
      · rcases htry h2 with ⟨h4, _⟩ | ⟨_, _, h5, _⟩
        · cases h4
        · cases h5
  | @child f h n tt i is x v ha h1 h2 h3 h4 h5 ht h6 =>
    obtain ⟨cf, rt, nf, nk, itf, it, nky, nch⟩ := f
    simp only at ha h1 h2 h3 h4 h5
    subst h1 h2 h3 h4 h5
    cases ready with
    | false =>
      refine .inl (NoFetch.flakes ?_ hfl).symm
      exact True.intro
    | true =>
      unfold Prog.poll at hfl ⊢
      simp only [Bool.true_eq_false, if_false] at hfl ⊢
      have hn := v.heap ha
      have hch : n.node.children[i]? = some tt.ref := by
        have : n.node.children = n.kids.map T.ref := by cases n; rfl
        rw [this, List.getElem?_map, ht]; rfl
      obtain ⟨h', vt⟩ := v.kid ht
      obtain ⟨a', s', h7, e7, ha'⟩ := getChild_run hw hn hch vt.rep.node
      have htry := fun {r t} hf => Frail.tried (r := r) (t := t) (does_getChild rt i)
        (frail_acts.getChild _ _) hw h7 hf
      have hdo : (Prog.tryResult (Prog.getChild rt i)).run s = (.ok (.ok a'), s') := by
        rw [Does.tryResult (does_getChild rt i)]
        exact tryResult_ok h7
      rw [Prog.run_bind, bind_ok hdo]
      have hout : (flatIdx cf.reversed n.keys n.kids ((2 * i) :: is))
          = dirFlat cf.reversed tt.flat ++ flatIdx cf.reversed n.keys n.kids is := by
        simp only [flatIdx, List.flatMap_cons, pieceD, piece, if_pos (show 2 * i % 2 = 0 by omega),
          show 2 * i / 2 = i by omega, ht]
        rfl
      rcases hfl.bind with ⟨y, u, h2, h3⟩ | ⟨e, h2, rfl⟩
      · rcases htry h2 with ⟨h4, rfl⟩ | ⟨e, h4, h5, h6'⟩
        · cases h4
          cases h3
          exact .inl rfl
        · cases h5
          cases h3
          refine .inr ⟨h6', _, _, _, rfl, .inl ⟨.inr ⟨e, h4, rfl⟩, (dirFlat cf.reversed tt.flat).filter fun q => cf.inBounds (keyOf s.core q), _, _, ?_, ?_,
            Strm.iter (s := t) (conf := cf) (f := ⟨cf, rt, nf, some x, itf, some is, none, none⟩)
              (v.ext hw h6') (h6'.addr ha) rfl rfl rfl rfl rfl (by rw [h6'.core]; exact h6)⟩⟩
          · rw [hout, List.filter_append, h6'.core]
          · omega
      · rcases htry h2 with ⟨h4, _⟩ | ⟨_, _, h5, _⟩
        · cases h4
        · cases h5
  | @sub f c cs h n tt is out x fuel v ha h1 h2 h3 h4 h5 hm h6 hs ih =>
    unfold Prog.poll at hfl ⊢
    simp only [h2, h3] at hfl ⊢
    rw [Prog.run_bind]
    obtain ⟨r0, fs0, s0, p1, e1, p2⟩ := poll_run hS hs hw ready
    have hdo : (Prog.poll ready (c :: cs)).run s = (.ok (r0, fs0), s0) := by rw [does_poll]; exact p1
    rcases hfl.bind with ⟨y, u, g1, g2⟩ | ⟨e, g1, rfl⟩
    · rcases ih g1 with g3 | ⟨g3, x', a, fs', g4, g5⟩
      · rw [bind_ok g3.symm]
        left
        refine ((NoFetch.flakes ?_ g2)).symm
        obtain ⟨p, rest'⟩ := y
        dsimp only
        split <;> exact True.intro
      · cases g4
        cases g2
        refine .inr ⟨g3, _, _, _, rfl, ?_⟩
        rcases g5 with ⟨g5, lost, out', fuel', rfl, g7, g8⟩ | ⟨g5, g6⟩
        · cases fs' with
          | nil => cases g8
          | cons c' cs' =>
            have := Strm.sub (s := t) (conf := conf) (f := f) (v.ext hw g3) (g3.addr ha) h1 h2 h3 h4 h5 hm
              (by rw [g3.core]; exact h6) g8
            exact .inl ⟨g5, lost, _, _, by rw [List.append_assoc, g3.core], by omega, this⟩
        · cases g6 with
          | last a1 a2 a3 a4 a5 => exact .inr ⟨g5, .sub h2 h3 (.last a1 a2 a3 a4 a5)⟩
          | sub a1 a2 a3 => exact .inr ⟨g5, .sub h2 h3 (.sub a1 a2 a3)⟩
    · rcases ih g1 with g3 | ⟨_, _, _, _, g4, _⟩
      · rw [hdo] at g3; cases g3
      · cases g4

/-! ## Driving the stream -/

/-- The last item is an error after which the stream is no use. -/
def Ended (xs : List (Except Err KeyValueData)) : Prop := ∃ e, xs.getLast? = some (.error e) ∧ Broken e

theorem Ended.cons {xs : List (Except Err KeyValueData)} (x : Except Err KeyValueData) (h : Ended xs) : Ended (x :: xs) := by
  obtain ⟨e, h1, h2⟩ := h
  cases xs with
  | nil => cases h1
  | cons y ys => exact ⟨e, by simpa using h1, h2⟩

/-- How a driven stream may be left. -/
def Left (t : St) (conf : TraverseConfig) (n : T) (xs : List (Except Err KeyValueData)) (rest : List Nat) (polls fuel : Nat) :
    Option (List Frame) → Prop
  | none => rest = []
  | some fs => Ended xs ∨ ∃ fuel', Strm t conf fs n rest fuel' ∧ fuel' + polls ≤ fuel

theorem Left.step {t : St} {conf : TraverseConfig} {n : T} {xs : List (Except Err KeyValueData)} {rest : List Nat}
    {rd : Bool} {rs : List Bool} {f fuel : Nat} (hle : (if rd then 1 else 0) + f ≤ fuel) {fin : Option (List Frame)}
    {ys : List (Except Err KeyValueData)} (he : Ended xs → Ended ys)
    (h : Left t conf n xs rest (rs.count true) f fin) : Left t conf n ys rest ((rd :: rs).count true) fuel fin := by
  cases fin with
  | none => exact h
  | some fs =>
    rcases h with h | ⟨f', h1, h2⟩
    · exact .inl (he h)
    · refine .inr ⟨f', h1, ?_⟩
      cases rd <;> simp at hle ⊢ <;> omega

def resumed : Err := .panic "traverse.rs:402 `async fn` resumed after completion"

theorem drive_flakes {conf : TraverseConfig} (hS : conf.Sound) {n : T} {c : List Bytes} :
    ∀ (sched : List Bool) (s : St) (fs : List Frame) (out : List Nat) (fuel : Nat), s.core = c →
    Strm s conf fs n out fuel → SWF s → ∀ {r t}, Flakes (Prog.drive Pure.pure sched fs) s r t →
    Ext s t ∧
    ((∃ xs fin rest, r = .ok (xs, fin) ∧ Account xs (out.map (kvOf c)) (rest.map (kvOf c)) ∧
        (∀ e, .error e ∈ xs → Skipped e ∨ Broken e) ∧ Left t conf n xs rest (sched.count true) fuel fin) ∨
      r = .error resumed) := by
  intro sched
  induction sched with
  | nil =>
    intro s fs out fuel _ h hw r t hfl
    cases hfl
    exact ⟨Ext.refl hw, .inl ⟨[], some fs, out, rfl, .rest _, by simp, .inr ⟨fuel, h, by simp⟩⟩⟩
  | cons rd rs ih =>
    intro s fs out fuel hcore h hw r t hfl
    obtain ⟨p, fs', s1, h1, e1, hp⟩ := poll_run hS h hw rd
    have hdo : (Prog.poll rd fs).run s = (.ok (p, fs'), s1) := by rw [does_poll]; exact h1
    unfold Prog.drive at hfl
    rcases hfl.bind with ⟨y, u, g1, g2⟩ | ⟨e, g1, rfl⟩
    · rcases poll_flakes hS h hw rd g1 with g3 | ⟨e3, x, a, fs1, g4, g5⟩
      · rw [hdo] at g3
        cases g3
        have hcore1 : s1.core = c := by rw [e1.core, hcore]
        cases p with
        | pending woken waiting =>
          obtain ⟨_, hp⟩ := hp
          have key : ∃ fuel', Strm s1 conf fs' n out fuel' ∧ (if rd then 1 else 0) + fuel' ≤ fuel := by
            cases waiting with
            | true =>
              rw [if_pos rfl] at hp
              obtain ⟨rfl, rfl, rfl⟩ := hp
              exact ⟨fuel, h, by simp⟩
            | false =>
              rw [if_neg (by simp)] at hp
              obtain ⟨f', hlt, hst⟩ := hp
              exact ⟨f', hst, by split <;> omega⟩
          obtain ⟨f', hst, hle⟩ := key
          obtain ⟨e2, h2⟩ := ih s1 fs' out f' hcore1 hst e1.wf g2
          refine ⟨e1.trans e2, ?_⟩
          rcases h2 with ⟨xs, fin, rest, h2, h3, h4, h5⟩ | h2
          · exact .inl ⟨xs, fin, rest, h2, h3, h4, h5.step hle id⟩
          · exact .inr h2
        | ready item woken =>
          cases item with
          | none =>
            cases g2
            exact ⟨e1, .inl ⟨[], none, out, rfl, .rest _, by simp, hp.2⟩⟩
          | some it =>
            obtain ⟨x, a⟩ := it
            obtain ⟨q, out', f', rfl, rfl, hlt, hst, _⟩ := hp
            have hle : (if rd then 1 else 0) + f' ≤ fuel := by split <;> omega
            rcases g2.bind with ⟨z, u2, g6, g7⟩ | ⟨e, g6, rfl⟩
            · cases g6
              rcases g7.bind with ⟨w, u3, g8, g9⟩ | ⟨e, g8, rfl⟩
              · cases g9
                obtain ⟨e2, h2⟩ := ih s1 fs' out' f' hcore1 hst e1.wf g8
                refine ⟨e1.trans e2, ?_⟩
                rcases h2 with ⟨xs, fin, rest, h2, h3, h4, h5⟩ | h2
                · cases h2
                  rw [← hcore] at h3 ⊢
                  refine .inl ⟨_, fin, rest, rfl, .ok h3, ?_, h5.step hle (.cons _)⟩
                  intro e he
                  rcases List.mem_cons.mp he with he | he
                  · cases he
                  · exact h4 e he
                · cases h2
              · obtain ⟨e2, h2⟩ := ih s1 fs' out' f' hcore1 hst e1.wf g8
                refine ⟨e1.trans e2, ?_⟩
                rcases h2 with ⟨xs, fin, rest, h2, h3, h4, h5⟩ | h2
                · cases h2
                · cases h2
                  exact .inr rfl
            · cases g6
      · cases g4
        have hcore1 : u.core = c := by rw [e3.core, hcore]
        rcases g2.bind with ⟨z, u2, g6, g7⟩ | ⟨e, g6, rfl⟩
        · cases g6
          rcases g5 with ⟨g5, lost, out', f', rfl, hlt, hst⟩ | ⟨g5, hdead⟩
          · have hle : (if rd then 1 else 0) + f' ≤ fuel := by split <;> omega
            rcases g7.bind with ⟨w, u3, g8, g9⟩ | ⟨e, g8, rfl⟩
            · cases g9
              obtain ⟨e2, h2⟩ := ih u fs1 out' f' hcore1 hst e3.wf g8
              refine ⟨e3.trans e2, ?_⟩
              rcases h2 with ⟨xs, fin, rest, h2, h3, h4, h5⟩ | h2
              · cases h2
                refine .inl ⟨_, fin, rest, rfl, ?_, ?_, h5.step hle (.cons _)⟩
                · rw [List.map_append]; exact .lost h3
                · intro e he
                  rcases List.mem_cons.mp he with he | he
                  · cases he; exact .inl g5
                  · exact h4 e he
              · cases h2
            · obtain ⟨e2, h2⟩ := ih u fs1 out' f' hcore1 hst e3.wf g8
              refine ⟨e3.trans e2, ?_⟩
              rcases h2 with ⟨xs, fin, rest, h2, h3, h4, h5⟩ | h2
              · cases h2
              · cases h2
                exact .inr rfl
          · cases rs with
            | nil =>
              rcases g7.bind with ⟨w, u3, g8, g9⟩ | ⟨e, g8, rfl⟩
              · cases g8
                cases g9
                refine ⟨e3, .inl ⟨_, some fs1, out, rfl, .lost (lost := []) (.rest _), ?_, .inl ⟨x, rfl, g5⟩⟩⟩
                intro e he
                simp only [List.mem_singleton] at he
                cases he
                exact .inr g5
              · cases g8
            | cons rd2 rs =>
              rcases g7.bind with ⟨w, u3, g8, g9⟩ | ⟨e, g8, rfl⟩
              · unfold Prog.drive at g8
                rw [hdead.poll] at g8
                cases g8
              · unfold Prog.drive at g8
                rw [hdead.poll] at g8
                cases g8
                exact ⟨e3, .inr rfl⟩
        · cases g6
    · rcases poll_flakes hS h hw rd g1 with g3 | ⟨_, _, _, _, g4, _⟩
      · rw [hdo] at g3; cases g3
      · cases g4

/-! ## A whole traversal -/

/-- Running the two parts one after the other with the failures of the whole. -/
theorem flaky_bind (p : Prog α) : ∀ fs s, ∃ fs', ∀ {β : Type} (f : α → Prog β),
    (p >>= f).flaky fs s = match p.flaky fs s with
      | (.ok a, t) => (f a).flaky fs' t
      | (.error e, t) => (.error e, t) := by
  induction p with
  | pure a => intro fs s; exact ⟨fs, fun _ => rfl⟩
  | throw e => intro fs s; exact ⟨fs, fun _ => rfl⟩
  | step x k ih =>
    intro fs s
    have hs : ∀ {γ : Type} (k : _ → Prog γ), (Prog.step x k).flaky fs s = match fs.head?.join.bind x.fail with
      | some r => (k r).flaky fs.tail s
      | none => (k (x.run s).1).flaky fs.tail (x.run s).2 := fun _ => by
      rw [Prog.flaky]
      rfl
    cases hr : fs.head?.join.bind x.fail with
    | some r =>
      obtain ⟨fs', h⟩ := ih r fs.tail s
      refine ⟨fs', fun f => ?_⟩
      have hb : (Prog.step x k >>= f) = Prog.step x fun r => k r >>= f := rfl
      rw [hb, hs, hs, hr]
      exact h f
    | none =>
      obtain ⟨fs', h⟩ := ih (x.run s).1 fs.tail (x.run s).2
      refine ⟨fs', fun f => ?_⟩
      have hb : (Prog.step x k >>= f) = Prog.step x fun r => k r >>= f := rfl
      rw [hb, hs, hs, hr]
      exact h f

/-- A stream that panics when driven does so in a poll. -/
theorem drive_error : ∀ (sched : List Bool) (fs : List Frame) (F : List (Option Fault)) (s t : St) (e : Err),
    (Prog.drive (Pure.pure : _ → Prog _) sched fs).flaky F s = (.error e, t) →
    ∃ before x after xs fs' u F', sched = before ++ x :: after ∧
      (Prog.drive (Pure.pure : _ → Prog _) before fs).flaky F s = (.ok (xs, some fs'), u) ∧
      (Prog.poll x fs').flaky F' u = (.error e, t) := by
  intro sched
  induction sched with
  | nil => intro fs F s t e h; cases h
  | cons r rs ih =>
    intro fs F s t e h
    unfold Prog.drive at h
    obtain ⟨F1, hF⟩ := flaky_bind (Prog.poll r fs) F s
    rw [hF] at h
    cases hp : (Prog.poll r fs).flaky F s with
    | mk o u =>
      rw [hp] at h
      cases o with
      | error e' =>
        cases h
        exact ⟨[], r, rs, [], fs, s, F, rfl, rfl, hp⟩
      | ok y =>
        obtain ⟨p, fs1⟩ := y
        have hF' := fun {β : Type} (f : _ → Prog β) => (hF f).trans (by rw [hp])
        cases p with
        | pending a b =>
          obtain ⟨before, x, after, xs, fs', u', F', h1, h2, h3⟩ := ih fs1 F1 u t e h
          refine ⟨r :: before, x, after, xs, fs', u', F', by rw [h1]; rfl, ?_, h3⟩
          unfold Prog.drive
          rw [hF']
          exact h2
        | ready item w =>
          cases item with
          | none => cases h
          | some it =>
            obtain ⟨y, a⟩ := it
            have hb : (Prog.drive (Pure.pure : _ → Prog (Except Err KeyValueData)) rs fs1 >>= fun z => Pure.pure (y :: z.1, z.2)).flaky F1 u
                = (.error e, t) := h
            obtain ⟨F2, hF2⟩ := flaky_bind (Prog.drive (Pure.pure : _ → Prog (Except Err KeyValueData)) rs fs1) F1 u
            rw [hF2] at hb
            cases hd : (Prog.drive (Pure.pure : _ → Prog (Except Err KeyValueData)) rs fs1).flaky F1 u with
            | mk o v =>
              rw [hd] at hb
              cases o with
              | ok z => cases hb
              | error e' =>
                cases hb
                obtain ⟨before, x, after, xs, fs', u', F', h1, h2, h3⟩ := ih fs1 F1 u t e hd
                refine ⟨r :: before, x, after, y :: xs, fs', u', F', by rw [h1]; rfl, ?_, h3⟩
                unfold Prog.drive
                rw [hF']
                show (Prog.drive (Pure.pure : _ → Prog (Except Err KeyValueData)) before fs1 >>= fun z => Pure.pure (y :: z.1, z.2)).flaky F1 u = _
                obtain ⟨F3, hF3⟩ := flaky_bind (Prog.drive (Pure.pure : _ → Prog (Except Err KeyValueData)) before fs1) F1 u
                rw [hF3, h2]
                rfl

theorem replyOf_flaky (f : α → Reply) (p : Prog α) : ∀ fs s, (Prog.replyOf f p).flaky fs s =
    (.ok (match (p.flaky fs s).1 with | .ok a => f a | .error e => .error e), (p.flaky fs s).2) := by
  induction p with
  | pure a => intro fs s; rfl
  | throw e => intro fs s; rfl
  | step x k ih =>
    intro fs s
    unfold Prog.replyOf Prog.flaky
    split
    · exact ih _ _ _
    · exact ih _ _ _

theorem execFlaky_traverse (fs : List (Option Fault)) (b : TraverseConfigBuilder) (sched : List Bool) (s : St) :
    execFlaky fs (.traverse b sched) s = (match ((Prog.traverseSession b sched).flaky fs s).1 with
      | .ok r => .items r.1 r.2 | .error e => .error e, ((Prog.traverseSession b sched).flaky fs s).2) := by
  show (match (Prog.replyOf (fun r => Reply.items r.1 r.2) (Prog.traverseSession b sched)).flaky fs s with
    | (.ok r, t) => (r, t) | (.error e, t) => (Reply.error e, t)) = _
  rw [replyOf_flaky]
  cases ((Prog.traverseSession b sched).flaky fs s).1 <;> rfl

/-- A traversal with failing reads. -/
theorem traverse_flakes {s : St} {H : Nat} {n : T} (ht : TreeAt s.core H n) (hw : SWF s) (hc : Coh s (· ∈ n.refs))
    {b : TraverseConfigBuilder} {conf : TraverseConfig} (hb : b.build = .ok conf) (sched : List Bool) (F : List (Option Fault)) :
    Ext s (execFlaky F (.traverse b sched) s).2 ∧
    let full := (listing s.core conf n).map (kvOf s.core)
    ((∃ e, ReadErr e ∧ (execFlaky F (.traverse b sched) s).1 = .error e) ∨
      (∃ xs fin rest, (execFlaky F (.traverse b sched) s).1 = .items xs fin ∧ Account xs full rest ∧
        (∀ e, .error e ∈ xs → Skipped e ∨ Broken e) ∧ (fin = true → rest = []) ∧
        (fin = false → Ended xs ∨ sched.count true ≤ n.cost)) ∨
      ((execFlaky F (.traverse b sched) s).1 = .error resumed ∧ ∃ before xs, before <+: sched ∧
        (execFlaky F (.traverse b before) s).1 = .items xs false ∧ Ended xs)) := by
  have hS := build_sound hb
  obtain ⟨fs, s1, h1, e1, hst⟩ := traverse_run ht hw hc conf
  have hdo : (Prog.traverse conf).run s = (.ok fs, s1) := by rw [does_traverse]; exact h1
  obtain ⟨F1, hF1⟩ := flaky_bind (Prog.traverse conf) F s
  have hses : ∀ sched, (Prog.traverseSession b sched).flaky F s = match (Prog.traverse conf).flaky F s with
      | (.ok a, t) => (Prog.drive Pure.pure sched a >>= fun r => Pure.pure (r.1, r.2.isNone)).flaky F1 t
      | (.error e, t) => (.error e, t) := by
    intro sched
    unfold Prog.traverseSession Prog.collect
    simp only [hb]
    rw [Prog.bind_bind, hF1]
    cases (Prog.traverse conf).flaky F s with
    | mk o t => cases o <;> rfl
  rcases (frail_acts.traverse_ conf s fs s1 hw hdo).2 _ _ (flaky_flakes (Prog.traverse conf) F s) with
    ⟨g1, g2⟩ | ⟨e, g1, g2, g3⟩
  · have hok : (Prog.traverse conf).flaky F s = (.ok fs, s1) := by rw [← g1, ← g2]
    rw [hok] at hses
    have hses' : ∀ sched, (execFlaky F (.traverse b sched) s) =
        (match ((Prog.drive Pure.pure sched fs).flaky F1 s1).1 with
          | .ok r => .items r.1 r.2.isNone | .error e => .error e, ((Prog.drive Pure.pure sched fs).flaky F1 s1).2) := by
      intro sched
      rw [execFlaky_traverse, hses]
      obtain ⟨F2, hF2⟩ := flaky_bind (Prog.drive (Pure.pure : _ → Prog (Except Err KeyValueData)) sched fs) F1 s1
      simp only [hF2]
      cases (Prog.drive Pure.pure sched fs).flaky F1 s1 with
      | mk o t => cases o <;> rfl
    rw [hses']
    obtain ⟨e2, h2⟩ := drive_flakes hS sched s1 fs _ _ e1.core hst e1.wf (flaky_flakes _ F1 s1)
    refine ⟨e1.trans e2, ?_⟩
    rcases h2 with ⟨xs, fin, rest, h2, h3, h4, h5⟩ | h2
    · refine .inr (.inl ⟨xs, fin.isNone, rest.map (kvOf s.core), ?_, h3, h4, ?_, ?_⟩)
      · rw [h2]
      · intro hfin
        cases fin with
        | none => rw [show rest = [] from h5]; rfl
        | some fs' => cases hfin
      · intro hfin
        cases fin with
        | none => cases hfin
        | some fs' =>
          rcases h5 with h5 | ⟨f', _, h5⟩
          · exact .inl h5
          · exact .inr (by omega)
    · refine .inr (.inr ⟨by rw [h2], ?_⟩)
      obtain ⟨before, x, after, xs, fs', u, F', k1, k2, k3⟩ := drive_error sched fs F1 s1 _ resumed
        (show (Prog.drive Pure.pure sched fs).flaky F1 s1 = (_, _) by rw [← h2])
      refine ⟨before, xs, ⟨x :: after, k1.symm⟩, ?_, ?_⟩
      · rw [hses', k2]; rfl
      · have := flaky_flakes (Prog.drive (Pure.pure : _ → Prog (Except Err KeyValueData)) before fs) F1 s1
        rw [k2] at this
        obtain ⟨e3, k4⟩ := drive_flakes hS before s1 fs _ _ e1.core hst e1.wf this
        rcases k4 with ⟨xs', fin', rest', k4, _, _, k5⟩ | k4
        · cases k4
          rcases k5 with k5 | ⟨f', k5, _⟩
          · exact k5
          · have hp := flaky_flakes (Prog.poll x fs') F' u
            rw [k3] at hp
            rcases poll_flakes hS k5 e3.wf x hp with k6 | ⟨_, _, _, _, k6, _⟩
            · obtain ⟨p, fs2, s2, k7, _⟩ := poll_run hS k5 e3.wf x
              rw [does_poll, k7] at k6
              cases k6
            · cases k6
        · cases k4
  · have herr : (Prog.traverse conf).flaky F s = (.error e, ((Prog.traverse conf).flaky F s).2) := by rw [← g2]
    rw [herr] at hses
    rw [execFlaky_traverse, hses]
    exact ⟨g3, .inl ⟨e, g1, rfl⟩⟩

/-- A traversal that is refused, failing reads or not. -/
theorem traverse_refused {s : St} {b : TraverseConfigBuilder} (h : s.core.length ≤ 1 ∨ ∃ e, b.build = .error e)
    (sched : List Bool) (F : List (Option Fault)) :
    execFlaky F (.traverse b sched) s = exec (.traverse b sched) s := by
  have hn : ((Prog.traverseSession b sched).flaky F s) = (Prog.traverseSession b sched).run s := by
    unfold Prog.traverseSession
    cases hb : b.build with
    | error e => rfl
    | ok conf =>
      rcases h with h | ⟨e, h⟩
      · have hroot : ∀ {r t}, Flakes (Prog.getRoot false) s r t → r = .ok none ∧ t = s := by
          intro r t hf
          unfold Prog.getRoot at hf
          rcases hf.bind with ⟨v, u, k1, k2⟩ | ⟨e, k1, rfl⟩
          · have := noFetch_version.flakes k1
            rw [show Prog.version.run s = (.ok s.core.length, s) from rfl] at this
            cases this
            rw [if_pos h, if_neg (by simp)] at k2
            cases k2
            exact ⟨rfl, rfl⟩
          · have := noFetch_version.flakes k1
            rw [show Prog.version.run s = (.ok s.core.length, s) from rfl] at this
            cases this
        have key : ∀ {r t}, Flakes (Prog.collect sched conf >>= fun x => Pure.pure (x.1, x.2.isNone)) s r t →
            r = .error .noRoot ∧ t = s := by
          intro r t hf
          unfold Prog.collect Prog.traverse at hf
          rw [Prog.bind_bind, Prog.bind_bind] at hf
          rcases hf.bind with ⟨v, u, k1, k2⟩ | ⟨e, k1, rfl⟩
          · obtain ⟨k3, rfl⟩ := hroot k1
            cases k3
            cases k2
            exact ⟨rfl, rfl⟩
          · have := hroot k1
            simp at this
        have a1 := key (flaky_flakes _ F s)
        have a2 := key (flakes_run _ s)
        exact Prod.ext (a1.1.trans a2.1.symm) (a1.2.trans a2.2.symm)
      · rw [hb] at h; cases h
  have hr : ∀ r, (Prog.traverseSession b sched).run s = r → execFlaky F (.traverse b sched) s = exec (.traverse b sched) s := by
    rintro ⟨o, t⟩ hr
    rw [execFlaky_traverse, hn, hr]
    rw [does_traverseSession] at hr
    show _ = Hyperbee.replyOf (traverseSession b sched) _ s
    unfold Hyperbee.replyOf
    rw [hr]
    cases o <;> rfl
  exact hr _ rfl

end Hyperbee
