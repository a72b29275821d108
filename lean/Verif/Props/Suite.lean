import Verif.Model.Check
import Verif.Model.Debug
import Verif.Model.SubSession
import Verif.Model.Ffi
/-!
# The repository's own tests, run on the model

Every test of src/ and tests/ whose outcome the model determines, with the same calls and the same
assertions.  They are no proofs of anything but that the model passes the tests the code passes; the
`check_tree` of the tests is `checkTree`.  (The tests in tests/ that run other implementations are
left out, as far as these do more than read what was written.)
-/

namespace Hyperbee.Suite

/-- `i.to_string()` as bytes; `i32_key_vec`, src/test/mod.rs. -/
def key (i : Nat) : Bytes := decimalF (i + 1) i []

def str (s : String) : Bytes := s.toList.map fun c => UInt8.ofNat c.toNat

/-- `hb_put!`, src/test/mod.rs. -/
def hbPut (is : List Nat) : List Cmd := is.map fun i => .put (key i) (some (key i))

/-- `check_tree` succeeds after the calls. -/
def checks (cs : List Cmd) : Bool :=
  match checkTree (runSt cs St.init) with
  | (.ok _, _) => true
  | _ => false

/-- The reply to the last of the calls. -/
def last (cs : List Cmd) : Option Reply := (runReplies cs St.init).getLast?

/-- Make the calls one after another, with `check_tree` after each; the state at the end, if all went
well. -/
def checked : List Cmd → St → Option St
  | [], s => some s
  | c :: cs, s =>
    match checkTree (exec c s).2 with
    | (.ok _, t) => checked cs t
    | _ => none

/-- As `checked`, asserting that the replies are these. -/
def replies (cs : List Cmd) : Option St → Option (List Reply)
  | some s => some (runReplies cs s)
  | none => none

/-- Poll until the end. -/
def long : List Bool := List.replicate 400 true

/-- The keys of the items, if the stream ended and there was no error; `.map(|x| x.unwrap().key)`. -/
def keysOf : Reply → Option (List Bytes)
  | .items xs true => xs.mapM fun x => match x with
    | .ok e => some e.key
    | .error _ => none
  | _ => none

/-! ## src/put.rs -/

/-- `test_cas`, src/put.rs:221-236. -/
example : runReplies
    [.putCas (str "foo") none fun _ _ => false, .putCas (str "foo") none fun _ _ => true,
     .putCas (str "foo") none fun _ _ => false, .putCas (str "foo") none fun _ _ => true] St.init =
    [.putCas none none, .putCas none (some 1), .putCas (some 1) none, .putCas (some 1) (some 2)] := by
  decide +kernel

/-- `test_old_seq`, src/put.rs:239-251. -/
example : runReplies [.put (str "a") none, .version, .put (str "a") none] St.init =
    [.put none 1, .version 2, .put (some 1) 2] := by decide +kernel

/-- `basic_put`, src/put.rs:254-268. -/
example : ∀ i ∈ List.range 4, ∀ j ∈ List.range (i + 1),
    last ((List.range (i + 1)).map (fun n => .put [UInt8.ofNat n] (some [UInt8.ofNat n])) ++ [.get [UInt8.ofNat j]]) =
      some (.got (some (j + 1, some [UInt8.ofNat j]))) := by decide +kernel

/-- `basic_put_with_replace`, src/put.rs:271-289. -/
example : ∀ i ∈ List.range 4, ∀ j ∈ List.range (i + 1),
    last (((List.range (i + 1)).flatMap fun n =>
        [.put [UInt8.ofNat n] (some [UInt8.ofNat n]), .put [UInt8.ofNat n] (some [UInt8.ofNat (n + 1)])]) ++ [.get [UInt8.ofNat j]]) =
      some (.got (some (2 * j + 2, some [UInt8.ofNat (j + 1)]))) := by decide +kernel

/-- `print_put`, src/put.rs:293-310. -/
example : (print long (runSt (hbPut (List.range 3)) St.init)).1 = .ok (some (str "0\n1\n2\n")) := by decide +kernel

/-- `multi_put`, src/put.rs:313-331 (the first 40 of 100 keys, the lookups after the last put only). -/
example : replies ((List.range 40).map fun j => .get (key j)) (checked (hbPut (List.range 40)) St.init) =
    some ((List.range 40).map fun j => .got (some (j + 1, some (key j)))) := by decide +kernel

/-- `rand.shuffle((0..100).collect())`, and the same list shuffled again: `Rand`, src/test/mod.rs, with
the values of `deterministic_rand_test`. -/
def shuffled : List Nat :=
  [78, 25, 1, 4, 88, 72, 45, 48, 26, 30, 28, 24, 11, 47, 53, 67, 75, 39, 91, 83, 18, 58, 27, 32, 52, 82, 73, 14, 93, 56,
   21, 31, 57, 16, 7, 20, 81, 90, 10, 12, 36, 68, 94, 29, 46, 85, 99, 69, 97, 86, 37, 15, 51, 63, 87, 5, 17, 95, 40, 33,
   34, 84, 74, 62, 59, 77, 13, 44, 60, 50, 2, 19, 79, 41, 64, 0, 54, 98, 8, 22, 9, 96, 23, 66, 89, 42, 49, 38, 92, 80,
   71, 61, 6, 65, 70, 76, 35, 55, 3, 43]

def reshuffled : List Nat :=
  [88, 5, 8, 46, 50, 94, 13, 37, 27, 86, 83, 78, 23, 80, 67, 51, 82, 18, 14, 65, 15, 71, 16, 55, 61, 97, 73, 25, 63, 92,
   84, 49, 81, 77, 87, 38, 64, 39, 29, 85, 53, 22, 96, 91, 41, 93, 0, 11, 43, 48, 34, 12, 28, 95, 21, 72, 32, 1, 45, 24,
   56, 47, 57, 4, 44, 35, 79, 2, 31, 74, 33, 10, 3, 17, 60, 52, 66, 42, 76, 68, 40, 62, 9, 26, 69, 59, 7, 54, 90, 75, 20,
   99, 58, 70, 89, 19, 30, 6, 36, 98]

/-- `shuffled_put`, src/put.rs:334-355 (the first 40 of 100 keys, the lookups after the last put
only). -/
example : replies ((shuffled.take 40).map fun j => .get (key j)) (checked (hbPut (shuffled.take 40)) St.init) =
    some ((shuffled.take 40).mapIdx fun i j => .got (some (i + 1, some (key j)))) := by decide +kernel

/-! ## src/del.rs -/

/-- `empty_tree_no_key`, src/del.rs:528-534. -/
example : last [.del [1]] = some (.del none) := by decide +kernel

/-- `no_key`, src/del.rs:537-543. -/
example : last (hbPut (List.range 10) ++ [.del [1]]) = some (.del none) := by decide +kernel

/-- Put `is`, delete `k`: it was there, and is gone, and `check_tree` succeeds. -/
def deletes (is : List Nat) (k : Nat) : Bool :=
  match runReplies [.del (key k), .get (key k)] (runSt (hbPut is) St.init) with
  | [.del (some _), .got none] => checks (hbPut is ++ [.del (key k), .get (key k)])
  | _ => false

/-- `delete_from_root_that_is_leaf`, src/del.rs:546-559. -/
example : deletes (List.range 4) 0 = true ∧
    last (hbPut (List.range 4) ++ [.del (key 0), .get (key 1)]) = some (.got (some (2, some (key 1)))) := by decide +kernel

/-- `delete_from_leaf_no_underflow`, src/del.rs:562-571. -/
example : deletes (List.range 10) 9 = true := by decide +kernel

/-- `delete_last_key`, src/del.rs:574-583. -/
example : deletes (List.range 1) 0 = true := by decide +kernel

/-- `delete_from_leaf_with_underflow_rotate_left`, src/del.rs:586-596. -/
example : deletes (List.range 6) 0 = true := by decide +kernel

/-- `delete_from_leaf_with_underflow_rotate_right`, src/del.rs:599-609. -/
example : deletes [1, 2, 3, 4, 5, 0] 5 = true := by decide +kernel

/-- `delete_from_leaf_with_underflow_merge_left`, src/del.rs:612-622. -/
example : deletes (List.range 5) 0 = true := by decide +kernel

/-- `delete_from_internal_no_underflow`, src/del.rs:625-634. -/
example : deletes (List.range 19) 5 = true := by decide +kernel

/-- `delete_from_internal_node_with_underflow_merge`, src/del.rs:637-647. -/
example : deletes (List.range 19) 10 = true := by decide +kernel

/-- `delete_from_internal_node_with_underflow_rotate`, src/del.rs:650-660. -/
example : deletes (List.range 25) 10 = true := by decide +kernel

/-- Delete the keys one after another: each is gone then, and `check_tree` succeeds each time. -/
def deletesAll (ks : List Nat) (s : St) : Bool :=
  match ks with
  | [] => true
  | k :: ks =>
    let t := (exec (.del (key k)) s).2
    let (r, t) := exec (.get (key k)) t
    match checkTree t with
    | (.ok _, t) => decide (r = .got none) && deletesAll ks t
    | _ => false

/-- `bug_where_root_was_not_getting_replaced`, src/del.rs:663-672. -/
example : deletesAll (List.range 5) (runSt (hbPut (List.range 5)) St.init) = true := by decide +kernel

/-- `rand_delete`, src/del.rs:677-696 (with the first 40 of 100 keys). -/
example : deletesAll (reshuffled.filter (· ∈ shuffled.take 40)) (runSt (hbPut (shuffled.take 40)) St.init) = true := by
  decide +kernel

/-- `test_del_compare_and_swap`, src/del.rs:699-723. -/
example : runReplies
    [.delCas (str "foo") fun _ => false, .put (str "foo") none, .delCas (str "no_key") fun _ => false,
     .delCas (str "no_key") fun _ => true, .delCas (str "foo") fun _ => false, .get (str "foo"),
     .delCas (str "foo") fun _ => true, .get (str "foo")] St.init =
    [.delCas none, .put none 1, .delCas none, .delCas none, .delCas (some (false, 1)), .got (some (1, none)),
     .delCas (some (true, 1)), .got none] := by decide +kernel

/-! ## src/traverse.rs -/

/-- The keys a traversal of the keys 0 to 9 yields; `traverse_check!`, src/traverse.rs:476-490. -/
def visits (b : TraverseConfigBuilder) : Option (List Nat) :=
  ((last (hbPut (List.range 10) ++ [.traverse b long])).bind keysOf).map
    fun ks => ks.map fun k => match k with
      | [x] => x.toNat - 48
      | _ => 99

def lim (n : Nat) : Option LimitValue := some (.ofNat n)

/-- `fix_usize_underflow_when_matched_max_val_inclusive_and_reversed`, src/traverse.rs:538-556. -/
example : visits { maxValue := lim 5, maxInclusive := some false, reversed := some true } = some [4, 3, 2, 1, 0] := by
  decide +kernel

/-- `fix_match_last_key_exclusive_in_leaf`, src/traverse.rs:559-574. -/
example : visits { minValue := lim 3, minInclusive := some false } = some [4, 5, 6, 7, 8, 9] := by decide +kernel

/-- `fix_match_last_key_exclusive_in_node`, src/traverse.rs:577-592. -/
example : visits { minValue := lim 4, minInclusive := some false } = some [5, 6, 7, 8, 9] := by decide +kernel

/-- `min_eq_max_inf`, src/traverse.rs:597-602. -/
example : visits { maxValue := some (.infinite .negative) } = some [] := by decide +kernel

/-- `min_eq_max_fin`, src/traverse.rs:605-635. -/
example : visits { minValue := lim 5, maxValue := lim 5 } = some [5] ∧
    visits { minValue := lim 5, maxValue := lim 5, minInclusive := some false } = none ∧
    visits { minValue := lim 5, maxValue := lim 5, maxInclusive := some false } = none ∧
    visits { minValue := lim 5, maxValue := lim 5, minInclusive := some false, maxInclusive := some false } = none := by
  decide +kernel

/-- `forwards` and `reversed`, src/traverse.rs:638-650. -/
example : visits {} = some (List.range 10) ∧ visits { reversed := some true } = some (List.range 10).reverse := by
  decide +kernel

/-- `min_exclusive_max_exclusive_backwards`, `min_max_exclusive_backwards`,
`min_exclusive_max_backwards`, src/traverse.rs:653-693. -/
example :
    visits { reversed := some true, minValue := lim 3, maxValue := lim 7, maxInclusive := some false, minInclusive := some false } =
      some [6, 5, 4] ∧
    visits { reversed := some true, minValue := lim 3, maxValue := lim 7, maxInclusive := some false } = some [6, 5, 4, 3] ∧
    visits { reversed := some true, minValue := lim 3, maxValue := lim 7, minInclusive := some false } = some [7, 6, 5, 4] := by
  decide +kernel

/-- `max`, `max_exclusive`, `min`, `min_exclusive`, src/traverse.rs:696-723. -/
example : visits { maxValue := lim 7 } = some [0, 1, 2, 3, 4, 5, 6, 7] ∧
    visits { maxValue := lim 7, maxInclusive := some false } = some [0, 1, 2, 3, 4, 5, 6] ∧
    visits { minValue := lim 3 } = some [3, 4, 5, 6, 7, 8, 9] ∧
    visits { minValue := lim 3, minInclusive := some false } = some [4, 5, 6, 7, 8, 9] := by decide +kernel

/-- `min_max`, `min_max_inclusive`, `min_inclusive_max`, `min_exclusive_max_exclusive`,
src/traverse.rs:726-770. -/
example : visits { minValue := lim 3, maxValue := lim 7 } = some [3, 4, 5, 6, 7] ∧
    visits { minValue := lim 3, maxValue := lim 7, maxInclusive := some false } = some [3, 4, 5, 6] ∧
    visits { minValue := lim 3, maxValue := lim 7, minInclusive := some false } = some [4, 5, 6, 7] ∧
    visits { minValue := lim 3, maxValue := lim 7, maxInclusive := some false, minInclusive := some false } = some [4, 5, 6] := by
  decide +kernel

/-! ## src/prefixed.rs -/

/-- `prefixed_conf`, src/prefixed.rs:206-213. -/
example : defaultSeparator = [0] := rfl

/-- `test_increment_bytes`, src/prefixed.rs:216-229. -/
example : incrementBytes (str "foo") = [102, 111, 112] ∧ incrementBytes [] = [0] ∧ incrementBytes [1, 2, 255] = [1, 2, 255, 0] := by
  decide +kernel

def myPrefix : Prefixed := ⟨str "my_prefix", defaultSeparator⟩

/-- `prefix`, src/prefixed.rs:232-284. -/
example : (runVia
    [(none, .put (str "hello") (some (str "no prefix"))), (some myPrefix, .put (str "hello") (some (str "with prefix"))),
     (none, .get (str "hello")), (some myPrefix, .get (str "hello")), (none, .get (str "my_prefix\x00hello")),
     (none, .del (str "hello")), (none, .get (str "hello")), (none, .get (str "my_prefix\x00hello")),
     (some myPrefix, .get (str "hello")), (some myPrefix, .del (str "hello")), (some myPrefix, .get (str "hello"))] St.init).1 =
    [.put none 1, .put none 2, .got (some (1, some (str "no prefix"))), .got (some (2, some (str "with prefix"))),
     .got (some (2, some (str "with prefix"))), .del (some 1), .got none, .got (some (2, some (str "with prefix"))),
     .got (some (2, some (str "with prefix"))), .del (some 2), .got none] := by decide +kernel

def pColon : Prefixed := ⟨str "p:", defaultSeparator⟩

/-- The calls of `prefixed_traverse_basic`, src/prefixed.rs:287-309. -/
def pCalls : List (Option Prefixed × Cmd) :=
  [(none, .put (str "a") none), (none, .put (str "b") none), (some pColon, .put (str "c") none), (some pColon, .put (str "a") none),
   (some pColon, .put (str "b") none), (some pColon, .put (str "e") none), (some pColon, .put (str "f") none),
   (none, .put (str "d") none), (none, .put (str "e") none), (none, .put (incrementBytes (str "p:")) none)]

def pVisits (b : TraverseConfigBuilder) : Option (List Bytes) :=
  ((runVia (pCalls ++ [(some pColon, .traverse b long)]) St.init).1.getLast?).bind keysOf

def letter (s : String) : Option LimitValue := some (.finite (str s))

/-- `prefixed_traverse_basic`, src/prefixed.rs:311-406. -/
example : pVisits {} = some [str "a", str "b", str "c", str "e", str "f"] ∧
    pVisits { minValue := letter "b" } = some [str "b", str "c", str "e", str "f"] ∧
    pVisits { minValue := letter "a", minInclusive := some false } = some [str "b", str "c", str "e", str "f"] ∧
    pVisits { maxValue := letter "e" } = some [str "a", str "b", str "c", str "e"] ∧
    pVisits { maxValue := letter "f", maxInclusive := some false } = some [str "a", str "b", str "c", str "e"] ∧
    pVisits { reversed := some true } = some [str "f", str "e", str "c", str "b", str "a"] ∧
    pVisits { reversed := some true, minValue := letter "b" } = some [str "f", str "e", str "c", str "b"] ∧
    pVisits { reversed := some true, minValue := letter "a", minInclusive := some false } =
      some [str "f", str "e", str "c", str "b"] ∧
    pVisits { reversed := some true, maxValue := letter "e" } = some [str "e", str "c", str "b", str "a"] ∧
    pVisits { reversed := some true, maxValue := letter "f", maxInclusive := some false } =
      some [str "e", str "c", str "b", str "a"] := by decide +kernel

/-! ## src/tree.rs -/

/-- `from_hc`, src/tree.rs:205-216. -/
example : runReplies [.put (str "hello") (some (str "world")), .get (str "hello")] (St.open []) =
    [.put none 1, .got (some (1, some (str "world")))] := by decide +kernel

/-- `height_zero`, src/tree.rs:219-230. -/
example : (height St.init).1 = .ok 0 ∧ (height (runSt [.put (str "foo") none] St.init)).1 = .ok 1 ∧
    (height (runSt [.put (str "foo") none, .del (str "foo")] St.init)).1 = .ok 1 := by decide +kernel

/-! ## examples/ and tests/ -/

/-- examples/ram.rs. -/
example : runReplies [.put (str "hello") (some (str "world")), .get (str "hello"), .get (str "no key here"), .del (str "hello"),
    .get (str "hello")] St.init =
    [.put none 1, .got (some (1, some (str "world"))), .got none, .del (some 1), .got none] := by decide +kernel

/-- The data of tests/common/js/index.js, `basic` (written there by another implementation). -/
def basic : List Cmd := (List.range 25).map fun i => .put (key i) (some (key (25 - i)))

/-- `basic_integration` and `no_key`, tests/basic.rs:10-36. -/
example : runReplies ((List.range 25).map (fun i => .get (key i)) ++ [.get (str "foobar")]) (runSt (basic ++ [.reopen]) St.init) =
    (List.range 25).map (fun i => .got (some (i + 1, some (key (25 - i))))) ++ [.got none] := by decide +kernel

/-- `stream`, tests/basic.rs:39-64: the keys in byte order. -/
example : (last (basic ++ [.reopen, .traverse {} long])).bind keysOf =
    some ([0, 1, 10, 11, 12, 13, 14, 15, 16, 17, 18, 19, 2, 20, 21, 22, 23, 24, 3, 4, 5, 6, 7, 8, 9].map key) := by decide +kernel

/-- The data of tests/common/js/index.js, `alphabet`, and `print`, tests/basic.rs:85-121. -/
example : (print long (runSt ((List.range 26).map fun i => .put [UInt8.ofNat (97 + i)] (some [UInt8.ofNat (97 + i)])) St.init)).1 =
    .ok (some (str ("\ta\n\tb\n\tc\n\td\ne\n\tf\n\tg\n\th\n\ti\nj\n\tk\n\tl\n\tm\n\tn\no\n\tp\n\tq\n\tr\n\ts\nt\n" ++
      "\tu\n\tv\n\tw\n\tx\n\ty\n\tz\n"))) := by decide +kernel

/-- `with_replaced_values`, tests/with_replaced_values.rs. -/
example : runReplies ((List.range 25).map fun i => .get (key i))
    (runSt ((List.range 25).map (fun i => .put (key i) (some (key i))) ++
      (List.range 25).map (fun i => .put (key i) (some (key (i * 2)))) ++ [.reopen]) St.init) =
    (List.range 25).map fun i => .got (some (i + 26, some (key (i * 2)))) := by decide +kernel

/-- `get_set_del`, `check_version`, tests/py_tests.rs:54-116. -/
example : (ffiRun [.put (str "hello") (some (str "world")), .get (str "hello"), .delete (str "hello")] FfiSt.fromRam).1 =
    [.putten ⟨none, 1⟩, .gotten (some ⟨1, some (str "world")⟩), .deleted (some 1)] ∧
    (ffiRun [.version, .put (str "foo") none, .version] FfiSt.fromRam).1 = [.version 0, .putten ⟨none, 1⟩, .version 2] := by
  decide +kernel

/-- `test_sub_prefix`, tests/py_tests.rs:26-51. -/
example : (ffiRun [.sub (str "myprefix") [0], .put (str "keykey") (some (str "no prefix")),
      .subPut 0 (str "keykey") (some (str "yes prefix")), .get (str "keykey"), .subGet 0 (str "keykey")] FfiSt.fromRam).1 =
    [.object 0, .putten ⟨none, 1⟩, .putten ⟨none, 2⟩, .gotten (some ⟨1, some (str "no prefix")⟩),
      .gotten (some ⟨2, some (str "yes prefix")⟩)] := by decide +kernel

/-- `optionals`, tests/py_tests.rs:75-99. -/
example : (ffiRun [.get (str "hello"), .put (str "skipval") none, .get (str "skipval")]
      ⟨runSt [.put (str "hello") none, .reopen] St.init, []⟩).1 =
    [.gotten (some ⟨1, none⟩), .putten ⟨none, 2⟩, .gotten (some ⟨2, none⟩)] := by decide +kernel

end Hyperbee.Suite
