import Verif.Proof.SubPaging
import Verif.Proof.SubAsync
import Verif.Props.PageEnds
/-!
# Reading a sub-database page by page (C104)
-/

namespace Hyperbee

/-! ## C104 -/

theorem pagingVia_one {p : Prefixed} {b : TraverseConfigBuilder} {cs : List (Option Prefixed × Cmd)} {sched : List Bool} {s : St}
    {e : KeyValueData} {fin : Bool} (h : (p.exec (.traverse b sched) (runVia cs s).2).1 = .items [.ok e] fin)
    {ps : List (List (Option Prefixed × Cmd) × List Bool)} :
    pagingVia p b ((cs, sched) :: ps) s = .items [.ok e] fin ::
      pagingVia p (nextPage b e.key) ps (p.exec (.traverse b sched) (runVia cs s).2).2 := by
  have hpg : pagingVia p b ((cs, sched) :: ps) s = (p.exec (.traverse b sched) (runVia cs s).2).1 ::
      pagingVia p (match (p.exec (.traverse b sched) (runVia cs s).2).1.entries.getLast? with | some e => nextPage b e.key | none => b)
        ps (p.exec (.traverse b sched) (runVia cs s).2).2 := rfl
  rw [hpg, h]
  rfl

/-- A database with a key of the sub-database `a`, and one of another, `ab`. -/
def circleStart : St := (runVia [(some ⟨[97], defaultSeparator⟩, .put [7] none), (some ⟨[97, 98], defaultSeparator⟩, .put [5] none)] St.init).2

/-- Paging a sub-database without an upper bound goes round in a circle, though nothing is written: the key
of another sub-database, with the wrong bytes cut off, sends the next page back to the beginning.  However
many pages are read, the same two entries come again and again, and no page says that there is nothing more. -/
theorem sub_paging_false : Mixed circleStart ∧ ∀ n : Nat,
    pagingVia ⟨[97], defaultSeparator⟩ {} (List.replicate (2 * n) ([], List.replicate 6 true)) circleStart =
      (List.replicate n [Reply.items [.ok ⟨1, [7], none⟩] false, .items [.ok ⟨2, [0, 5], none⟩] false]).flatten := by
  have hM : Mixed circleStart := ⟨_, rfl⟩
  refine ⟨hM, fun n => ?_⟩
  obtain ⟨d, hd⟩ := hM.holds
  let p : Prefixed := ⟨[97], defaultSeparator⟩
  have f1 : (p.exec (.traverse {} (List.replicate 6 true)) circleStart).1 = .items [.ok ⟨1, [7], none⟩] false := by decide +kernel
  have f2 : (p.exec (.traverse (nextPage {} [0, 5]) (List.replicate 6 true)) circleStart).1 = .items [.ok ⟨1, [7], none⟩] false := by
    decide +kernel
  have f3 : (p.exec (.traverse (nextPage {} [7]) (List.replicate 6 true)) circleStart).1 = .items [.ok ⟨2, [0, 5], none⟩] false := by
    decide +kernel
  have go : ∀ (n : Nat) (b : TraverseConfigBuilder) (t : St), Holds t d → t.core = circleStart.core →
      (b = {} ∨ b = nextPage {} [0, 5]) →
      pagingVia p b (List.replicate (2 * n) ([], List.replicate 6 true)) t =
        (List.replicate n [Reply.items [.ok ⟨1, [7], none⟩] false, .items [.ok ⟨2, [0, 5], none⟩] false]).flatten := by
    intro n
    induction n with
    | zero => intro b t _ _ _; rfl
    | succ n ih =>
      intro b t ht hc hb
      have r1 : (p.exec (.traverse b (List.replicate 6 true)) t).1 = .items [.ok ⟨1, [7], none⟩] false := by
        rw [← (subTraverse_same hd ht hc p b _).1]
        rcases hb with rfl | rfl
        · exact f1
        · exact f2
      have x1 := p.traverse_ext ht b (List.replicate 6 true)
      have h1 := x1.holds ht
      have hn : nextPage b [7] = nextPage {} [7] := by
        rcases hb with rfl | rfl
        · rfl
        · rw [nextPage_nextPage]
      have c1 : (p.exec (.traverse b (List.replicate 6 true)) t).2.core = circleStart.core := x1.core.trans hc
      have r2 : (p.exec (.traverse (nextPage {} [7]) (List.replicate 6 true)) (p.exec (.traverse b (List.replicate 6 true)) t).2).1 =
          .items [.ok ⟨2, [0, 5], none⟩] false := by
        rw [← (subTraverse_same hd h1 c1 p _ _).1]
        exact f3
      have x2 := p.traverse_ext h1 (nextPage {} [7]) (List.replicate 6 true)
      have e : pagingVia p b (List.replicate (2 * (n + 1)) ([], List.replicate 6 true)) t =
          .items [.ok ⟨1, [7], none⟩] false :: .items [.ok ⟨2, [0, 5], none⟩] false ::
          pagingVia p (nextPage (nextPage {} [7]) [0, 5]) (List.replicate (2 * n) ([], List.replicate 6 true))
            (p.exec (.traverse (nextPage {} [7]) (List.replicate 6 true)) (p.exec (.traverse b (List.replicate 6 true)) t).2).2 := by
        rw [show 2 * (n + 1) = 2 * n + 1 + 1 from rfl, List.replicate_succ (n := 2 * n + 1), List.replicate_succ (n := 2 * n)]
        refine (pagingVia_one (cs := []) r1).trans ?_
        rw [hn]
        exact congrArg (_ :: ·) (pagingVia_one (cs := []) r2)
      rw [e, nextPage_nextPage, ih _ _ (x2.holds h1) (x2.core.trans c1) (.inr rfl), List.replicate_succ, List.flatten_cons]
      rfl
  exact go n {} circleStart hd rfl (.inl rfl)

/-- C104: a range of a sub-database is read page by page, each page from behind the last key seen, while
other calls are made between pages, on the database and through any sub-databases.  Both bounds are keys; or
bounds are left open, and nothing else is stored that an open bound lets through.  No page fails, but that the
database may be empty, or the configuration refused.  What a page yields is in the range and in the
sub-database when the page is read.  Over all pages keys come in the order asked for, so none comes twice.
Once a page says that there is nothing more, every key of the range that the sub-database held when each page
was read has come. -/
theorem sub_paging_partial (before : List (Option Prefixed × Cmd)) (p : Prefixed) {b : TraverseConfigBuilder} {conf : TraverseConfig}
    (hb : b.build = .ok conf) (hfin : FiniteBounds b) (ps : List (List (Option Prefixed × Cmd) × List Bool)) :
    let rs := pagingVia p b ps (runVia before St.init).2
    let vs := views (Db.empty.after (before.map expandVia)) (expandPages ps)
    (TwoKeys b ∨ ∀ v ∈ vs, v.Clean p) →
    (∀ (i : Nat) (r : Reply) (v : Db), rs[i]? = some r → vs[i]? = some v →
      (r = .error .traverseConfigBuilder ∨ r = .error .noRoot ∧ v.version ≤ 1 ∨
        ∃ (xs : List KeyValueData) (fin : Bool), r = .items (xs.map .ok) fin) ∧
      ∀ e ∈ r.entries, v.map (p.pre ++ p.sep ++ e.key) = some (e.seq, e.value) ∧ InRange conf e.key) ∧
    (rs.flatMap Reply.entries).Pairwise (fun x y => Behind conf x.key y.key) ∧
    ∀ (j : Nat) (r : Reply), rs[j]? = some r → r.lastPage → ∀ k, InRange conf k →
      (∀ (i : Nat) (v : Db), i ≤ j → vs[i]? = some v → v.map (p.pre ++ p.sep ++ k) ≠ none) →
      ∃ i r, i ≤ j ∧ rs[i]? = some r ∧ ∃ e ∈ r.entries, e.key = k := by
  intro rs vs hcl
  obtain ⟨h1, h2, _, h3⟩ := sub_paging_aux hb hfin ps (runVia_holds before init_holds) hfin hcl .first
  refine ⟨fun i r v hr hv => ⟨(h1 i r v hr hv).1, fun e he => ?_⟩, h2, fun j r hr hl k hk => h3 j r hr hl k hk fun l hl => (by cases hl)⟩
  obtain ⟨g1, g2⟩ := (h1 i r v hr hv).2 e he
  refine ⟨?_, g2⟩
  rw [Db.entry_eq] at g1
  change (v.map (p.pre ++ p.sep ++ e.key)).map _ = _ at g1
  cases hm : v.map (p.pre ++ p.sep ++ e.key) with
  | none => rw [hm] at g1; cases g1
  | some z =>
    rw [hm] at g1
    simp only [Option.map_some, Option.some.injEq] at g1
    rw [← g1]

/-- And it comes to an end.  Let there be a tree, and let each page be polled `8 * (log₅ version + 1)` times
with its future ready.  If there are more pages than keys that are ever in the range of the sub-database, some
page says that there is nothing more. -/
theorem sub_paging_ends_partial (before : List (Option Prefixed × Cmd)) (p : Prefixed) {b : TraverseConfigBuilder} {conf : TraverseConfig}
    (hb : b.build = .ok conf) (hfin : FiniteBounds b) (ps : List (List (Option Prefixed × Cmd) × List Bool)) :
    let vs := views (Db.empty.after (before.map expandVia)) (expandPages ps)
    (TwoKeys b ∨ ∀ v ∈ vs, v.Clean p) → 2 ≤ (Db.empty.after (before.map expandVia)).version →
    (∀ (i : Nat) (q : List (Option Prefixed × Cmd) × List Bool) (v : Db), ps[i]? = some q → vs[i]? = some v →
      8 * (Nat.log 5 v.version + 1) ≤ q.2.count true) →
    ∀ ks : List Bytes, (∀ v ∈ vs, ∀ k, InRange conf k → v.map (p.pre ++ p.sep ++ k) ≠ none → k ∈ ks) → ks.length < ps.length →
    ∃ r ∈ pagingVia p b ps (runVia before St.init).2, r.lastPage := by
  intro vs hcl h2 hpoll ks hks hlen
  rcases sub_paging_live ps b ⟨before, rfl⟩ (runVia_holds before init_holds) hfin hcl h2 hpoll with h | h
  · exact h
  · exfalso
    obtain ⟨h1, h3, _⟩ := sub_paging_partial before p hb hfin ps hcl
    have hsub : (((pagingVia p b ps (runVia before St.init).2).flatMap Reply.entries).map (·.key)) ⊆ ks := by
      intro k hk
      obtain ⟨e, he, rfl⟩ := List.mem_map.mp hk
      obtain ⟨r, hr, her⟩ := List.mem_flatMap.mp he
      obtain ⟨i, hi, hri⟩ := List.getElem_of_mem hr
      have hiv : i < vs.length := by
        rw [views_length, expandPages, List.length_map]
        rwa [pagingVia_length] at hi
      obtain ⟨_, hx⟩ := h1 i r _ (by rw [List.getElem?_eq_getElem hi, hri]) (List.getElem?_eq_getElem hiv)
      obtain ⟨hx1, hx2⟩ := hx e her
      exact hks _ (List.getElem_mem hiv) _ hx2 (by rw [hx1]; simp)
    have := ((behind_nodup h3).subperm hsub).length_le
    rw [List.length_map] at this
    omega

/-- What `get` finds through a sub-database. -/
theorem Holds.sub_get_iff {s : St} {d : Db} (h : Holds s d) (p : Prefixed) (e : KeyValueData) :
    (p.exec (.get e.key) s).1 = .got (some (e.seq, e.value)) ↔ d.map (p.pre ++ p.sep ++ e.key) = some (e.seq, e.value) := by
  have h1 : (p.exec (.get e.key) s).1 = .got (d.map (p.pre ++ p.sep ++ e.key)) := (sub_is_database h p (.get e.key) trivial).1
  rw [h1]
  simp

/-- If moreover nothing of the sub-database in the range changes while it is read, whatever is written
elsewhere, the pages together are exactly what `get` on the sub-database finds in the range, in the order asked
for. -/
theorem sub_paging_whole_partial (before : List (Option Prefixed × Cmd)) (p : Prefixed) {b : TraverseConfigBuilder} {conf : TraverseConfig}
    (hb : b.build = .ok conf) (hfin : FiniteBounds b) (ps : List (List (Option Prefixed × Cmd) × List Bool)) :
    let d := Db.empty.after (before.map expandVia)
    let vs := views d (expandPages ps)
    (TwoKeys b ∨ ∀ v ∈ vs, v.Clean p) → 2 ≤ d.version →
    (∀ (i : Nat) (q : List (Option Prefixed × Cmd) × List Bool) (v : Db), ps[i]? = some q → vs[i]? = some v →
      8 * (Nat.log 5 v.version + 1) ≤ q.2.count true) →
    (∀ v ∈ vs, ∀ k, InRange conf k → v.map (p.pre ++ p.sep ++ k) = d.map (p.pre ++ p.sep ++ k)) →
    ∀ full : List KeyValueData, SubLists p (runVia before St.init).2 conf full → full.length < ps.length →
    (pagingVia p b ps (runVia before St.init).2).flatMap Reply.entries = full := by
  intro d vs hcl h2 hpoll hsame full hfull hlen
  have hd : Holds (runVia before St.init).2 d := runVia_holds before init_holds
  obtain ⟨r, hr, hlast⟩ := sub_paging_ends_partial before p hb hfin ps hcl h2 hpoll (full.map (·.key)) (fun v hv k hk hm => by
    rw [hsame v hv k hk] at hm
    obtain ⟨x, hx⟩ := Option.ne_none_iff_exists'.mp hm
    exact List.mem_map.mpr ⟨⟨x.1, k, x.2⟩, (hfull.2 _).mpr ⟨(hd.sub_get_iff p _).mpr hx, hk⟩, rfl⟩)
    (by rwa [List.length_map])
  obtain ⟨h1, h3, h4⟩ := sub_paging_partial before p hb hfin ps hcl
  have hmem : ∀ e ∈ (pagingVia p b ps (runVia before St.init).2).flatMap Reply.entries,
      d.map (p.pre ++ p.sep ++ e.key) = some (e.seq, e.value) ∧ InRange conf e.key := by
    intro e he
    obtain ⟨r, hr, her⟩ := List.mem_flatMap.mp he
    obtain ⟨i, hi, hri⟩ := List.getElem_of_mem hr
    have hiv : i < vs.length := by
      rw [views_length, expandPages, List.length_map]
      rwa [pagingVia_length] at hi
    obtain ⟨_, hx⟩ := h1 i r _ (by rw [List.getElem?_eq_getElem hi, hri]) (List.getElem?_eq_getElem hiv)
    obtain ⟨hx1, hx2⟩ := hx e her
    exact ⟨(hsame _ (List.getElem_mem hiv) _ hx2).symm.trans hx1, hx2⟩
  refine SubLists.unique (fun _ => rfl) ⟨?_, fun e => ⟨fun he => ?_, fun he => ?_⟩⟩ hfull
  · unfold Behind at h3
    cases hc : conf.reversed with
    | true => rw [hc] at h3; exact List.pairwise_reverse.mpr h3
    | false => rw [hc] at h3; exact h3
  · exact ⟨(hd.sub_get_iff p e).mpr (hmem e he).1, (hmem e he).2⟩
  · obtain ⟨he1, he2⟩ := he
    have hent := (hd.sub_get_iff p e).mp he1
    obtain ⟨j, hj, hrj⟩ := List.getElem_of_mem hr
    obtain ⟨i, r', _, hri, e', he', hk⟩ := h4 j r (by rw [List.getElem?_eq_getElem hj, hrj]) hlast e.key he2 (fun i v _ hv hn => by
      rw [hsame v (List.mem_of_getElem? hv) _ he2, hent] at hn
      cases hn)
    have hin : e' ∈ (pagingVia p b ps (runVia before St.init).2).flatMap Reply.entries :=
      List.mem_flatMap.mpr ⟨r', List.mem_of_getElem? hri, he'⟩
    have := (hmem e' hin).1
    rw [hk, hent] at this
    have hee : e' = e := by
      cases e; cases e'
      simp only [Option.some.injEq, Prod.mk.injEq] at this hk
      simp [hk, this.1, this.2]
    rwa [← hee]

/-- Keys of two sub-databases and one outside; the first is read backwards between two keys, in pages, while the
other is written to.  The last configuration is refused: nothing can be left. -/
def demoSubPages : List (List (Option Prefixed × Cmd) × List Bool) :=
  [([], List.replicate 8 true), ([(some ⟨[97, 98], [0]⟩, .put [6] none), (some ⟨[97], [0]⟩, .del [2])], List.replicate 8 true),
    ([(none, .put [97, 0, 9] none)], List.replicate 8 true), ([], List.replicate 8 true)]

def demoSubBefore : List (Option Prefixed × Cmd) :=
  [(some ⟨[97], [0]⟩, .put [1] none), (some ⟨[97, 98], [0]⟩, .put [5] none), (some ⟨[97], [0]⟩, .put [3] none), (none, .put [97] none),
    (some ⟨[97], [0]⟩, .put [2] none)]

def demoSubBuilder : TraverseConfigBuilder :=
  { minValue := some (.finite [1]), maxValue := some (.finite [3]), reversed := some true }

example : TwoKeys demoSubBuilder ∧ demoSubBuilder.build.toOption.isSome ∧
    (views (Db.empty.after (demoSubBefore.map expandVia)) (expandPages demoSubPages)).map (·.version) = [6, 8, 9, 9] ∧
    pagingVia ⟨[97], [0]⟩ demoSubBuilder demoSubPages (runVia demoSubBefore St.init).2 =
      [.items [.ok ⟨3, [3], none⟩, .ok ⟨5, [2], none⟩] false, .items [.ok ⟨1, [1], none⟩] true,
        .error .traverseConfigBuilder, .error .traverseConfigBuilder] :=
  ⟨⟨_, _, rfl, rfl⟩, rfl, by decide +kernel, by decide +kernel⟩

/-- Again backwards between two keys, but what is written between pages is of another sub-database, or out of the
range: the pages are all of the range. -/
def demoQuietPages : List (List (Option Prefixed × Cmd) × List Bool) :=
  [([], List.replicate 16 true), ([(some ⟨[97, 98], [0]⟩, .put [2] none)], List.replicate 16 true),
    ([(some ⟨[97], [0]⟩, .put [9] none)], List.replicate 16 true), ([], List.replicate 16 true)]

example : TwoKeys demoSubBuilder ∧
    (∀ v ∈ views (Db.empty.after (demoSubBefore.map expandVia)) (expandPages demoQuietPages), ∀ k, k ≤ [3] →
      v.map ([97] ++ [0] ++ k) = (Db.empty.after (demoSubBefore.map expandVia)).map ([97] ++ [0] ++ k)) ∧
    (views (Db.empty.after (demoSubBefore.map expandVia)) (expandPages demoQuietPages)).map (fun v => 8 * (Nat.log 5 v.version + 1)) =
      [16, 16, 16, 16] ∧
    (pagingVia ⟨[97], [0]⟩ demoSubBuilder demoQuietPages (runVia demoSubBefore St.init).2).flatMap Reply.entries =
      [⟨3, [3], none⟩, ⟨5, [2], none⟩, ⟨1, [1], none⟩] := by
  refine ⟨⟨_, _, rfl, rfl⟩, fun v hv k hk => ?_, by decide +kernel, by decide +kernel⟩
  have h9 : k ≠ [9] := by rintro rfl; revert hk; decide
  simp only [demoQuietPages, demoSubBefore, expandPages, views, List.map_cons, List.map_nil, expandVia, Prefixed.expand, Db.after,
    Db.next, List.mem_cons, List.not_mem_nil, or_false] at hv ⊢
  rcases hv with rfl | rfl | rfl | rfl <;> simp [Db.write, Db.empty, h9]

/-- Without bounds, among keys of another sub-database whose name does not continue this one. -/
def demoOpenPages : List (List (Option Prefixed × Cmd) × List Bool) :=
  [([], List.replicate 8 true), ([(some ⟨[98], [0]⟩, .put [6] none)], List.replicate 8 true), ([], List.replicate 8 true)]

def demoOpenBefore : List (Option Prefixed × Cmd) :=
  [(some ⟨[97], [0]⟩, .put [1] none), (some ⟨[97], [0]⟩, .put [3] none), (some ⟨[97], [0]⟩, .put [2] none)]

example : FiniteBounds {} ∧
    (∀ v ∈ views (Db.empty.after (demoOpenBefore.map expandVia)) (expandPages demoOpenPages), v.Clean ⟨[97], [0]⟩) ∧
    pagingVia ⟨[97], [0]⟩ {} demoOpenPages (runVia demoOpenBefore St.init).2 =
      [.items [.ok ⟨1, [1], none⟩, .ok ⟨3, [2], none⟩] false, .items [.ok ⟨2, [3], none⟩] true, .items [] true] := by
  refine ⟨fun x => ⟨by simp, by simp⟩, fun v hv => ⟨by simp, ⟨97, rfl, by decide⟩, fun x hx hp => ?_⟩, by decide +kernel⟩
  have hv' : v.map x = none ∨ x ∈ [[97, 0, 1], [97, 0, 3], [97, 0, 2], [98, 0, 6]] := by
    by_cases h : x ∈ ([[97, 0, 1], [97, 0, 3], [97, 0, 2], [98, 0, 6]] : List Bytes)
    · exact .inr h
    · left
      simp only [List.mem_cons, List.not_mem_nil, or_false, not_or] at h
      simp only [demoOpenPages, demoOpenBefore, expandPages, views, List.map_cons, List.map_nil, expandVia, Prefixed.expand, Db.after,
        Db.next, List.mem_cons, List.not_mem_nil, or_false] at hv
      rcases hv with rfl | rfl | rfl <;> simp [Db.write, Db.empty, h]
  rcases hv' with h | h
  · exact absurd h hx
  · simp only [List.mem_cons, List.not_mem_nil, or_false] at h
    rcases h with rfl | rfl | rfl | rfl
    · decide
    · decide
    · decide
    · revert hp; decide

end Hyperbee
