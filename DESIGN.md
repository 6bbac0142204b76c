# Formal model of generic-btree in Lean 4 — design

## 1. What is modelled

The crate is modelled at the level of its *arenas*: the state of a `BTree<B>` is two arenas
(internal nodes with parent link, parent slot, child list with cached summaries; leaf nodes with
element and parent link), the root index and the root cache — the same fields as the Rust struct.
Every Rust function becomes a Lean function `State → … → Except Err (State × Result)`;
`Err.panic` is a Rust panic (`unwrap` on `None`, index out of bounds, `assert!`, `unreachable!`,
overflow of a fixed capacity array), `Err.fuel` marks an exhausted loop bound (never a panic; all
positive theorems prove `Except.ok`, and thereby termination).

Layers (all under `lean/Verif/`):

| file | content |
|---|---|
| `Model/Basic.lean` | `Except` result monad, arenas, bounded arrays |
| `Model/Trait.lean` | the `BTreeTrait`/`Mergeable`/`Sliceable`/… callbacks as a record of functions |
| `Model/Tree.lean` … | function-by-function model of `src/lib.rs` |
| `Model/Iter.lean` | `src/iter.rs` |
| `Model/GapBuffer.lean`, `Model/LenFinder.lean`, `Model/Ord.lean`, `Model/Rope.lean`, `Model/Rle.lean` | the other source files |
| `Model/RangeMap.lean` | the range map of `tests/range_num_map/mod.rs` |
| `Model/GenArena.lean` | arenas with slots, generations and a free list, used by C71 only |
| `Model/Search.lean`, `Model/FilterIter.lean`, `Model/Debug.lean`, `Model/LazyIter.lean` | second, finer models of parts of `src/lib.rs` and `src/iter.rs`: the search with its finder returned or with another binary search (C73, C75), `iter_with_filter` with a stateful closure (C76), `Debug` and `diagnose_balance` (C77), the iterators call by call (C78) |
| `Model/Harness.lean` | the two fuzz targets, and the tests of `rope.rs`, `ord.rs` and `tests/integration.rs` as functions of their data |
| `Model/Bench.lean` | the programs of `benches/` and `examples/` as functions of their data (C81) |
| `Model/UnitTests.lean` | the fixed unit tests of the crate with their data as parameters (C82) |
| `Model/Unwind.lean` | the functions that take a closure, with the tree that a panic of the closure leaves (C91, C92) |
| `Spec/*.lean` | small independent specifications: flat lists of `(leaf id, element)`, sorted association lists, byte strings |
| `Proof/*.lean` | helper lemmas (invariants, locality of updates, level induction) |
| `Props/*.lean` | the property theorems C01… and non-vacuity examples |

## 2. Proof method

* A *local* invariant `WF` (essentially what `BTree::check` asserts): each child entry points to a
  node whose parent link and slot point back; a ghost level function decreases by one from parent to
  child and is 1 on leaf parents (uniform depth); every stored node has a parent entry pointing to it
  (no leaks); sizes; and a local cache invariant (entry = combination of the caches of the node's own
  children) with an explicit exception set while an operation is in flight.
* The *abstraction* is the in-order list of leaf ids/elements. Because it only depends on child lists,
  rebalancing is shown to preserve it by level induction, and editing operations are shown to act on it
  as a substitution (`flatMap`) on leaf ids.
* Every API operation gets a refinement theorem: `Abs s L → ∃ s', op s = ok s' ∧ Abs s' (specOp L)`.
  Properties about histories follow by induction on the list of operations.
* Trait callbacks are arbitrary; theorems quantify over every record of callbacks satisfying an explicit
  law structure, and the laws are proved for the concrete instances of the repo (rope, ordered map,
  the range map of the tests).

## 3. Properties

`properties.jsonl` has the statements, `MANIFEST.json` the status and the names of the theorems; each
property has its file `Props/Cnn.lean`, whose header repeats the statement and says what is left open.
The plan and its outcome:

| properties | route | outcome |
|---|---|---|
| C01, C03, C04 | refinement theorem of the single operation against the flat list | proved |
| C02 `prepend` | same | partial: false on the empty tree (root cache not updated); `C02_empty_exact` |
| C05, C43 | an operation touches a declared set of leaves; induction over histories `BOp` | proved, `clear()` excluded (it reuses indices, `C05_clear_alias`) |
| C06, C07, C28, C29 | invariants `Good`, `Sz` over all operations | C06 partial: `check()` fails on an emptied `OrdTreeMap`; `C06_check_iff` is exact |
| C08–C12, C14–C17, C41, C44 | read-only operations computed from the abstraction | proved |
| C13 `shift_path_by_one_offset` | same | partial: false at the end of a node, and exactly there (`C13_end_partial`) |
| C18 `drain` | stages of `Drain::drop`, each preserving row descriptions | proved up to 8 levels; higher trees: right unless it panics, `C18_panics_iff` says when |
| C19 empty drain | same | partial: dropping panics on the empty tree and at the very end |
| C20–C22, C42 | update operations; dirty map as pending diffs | proved; `C21_panics_iff`, `C22_too_high` for trees too high for a path |
| C23 ranges | same, pieces of a leaf cut at the range ends | partial: false for empty ranges at the edges of an element; `C23_exact` covers all ranges |
| C24 `insert_many_by_cursor`, C25 `merge_adj` | | partial: `merge_adj` reorders, `None` panics; `C24_exact`, `C25_exact` give the resulting order |
| C26 `from_iter`, C27 `clear`, C40 `update_with_split` | | proved |
| C30–C32, C34, C45 ordered map | instance of the generic theorems with fill 6, sorted lists | proved |
| C33 deleting an absent key | | partial: false, a neighbour is deleted |
| C35 rope histories | instance with byte strings | partial: false without a bound; proved below 390 626 bytes, and up to 8 levels; beyond that every history panics or is right, and `C35_delete_panics_iff`, `C35_read_iff` say which |
| C36 `Rope::clear` | | partial: false, the cached cursor survives; `C36_fresh_partial` and `C36_false_always` separate the good from the bad cursors |
| C37–C39 | rope length, gap buffer | proved |
| C47 range map | instance of the generic theorems (C01, C09, C21, C44) with run-length elements | proved up to 781 248 runs; with more, every history panics or is right; `insert(0..0)` on an empty map stores an element of length 0 |
| C48 enumeration of the range map | `iter`, `drain` | partial: false if a gap comes before a value |
| C49 all operations | `brun` (histories of `BOp`), `Inv.sound` | proved; with drains for `LawE` traits |
| C50 text of the rope | C35 and UTF-8 encoding of character lists | proved |
| C51 `get_elem_mut` | leaf replaced in place, `check_sound` | proved |
| C52 number of nodes | sums over the rows of the tree | proved |
| C53 ranges given by bounds | positions picked by `within` | proved |
| C54 growth of the tree | `Steps`: the height before and after, exact through `split` | proved |
| C55 rope fuzzing | the fuzz target and `fuzz` keep rope and `String` in step (`ropeStep_spec`, C06, C50) | proved, at most 130208 actions |
| C56 set fuzzing | the fuzz target keeps set and `BTreeSet` in step | proved, any length |
| C57 tests of ordered maps | exactly the data on which each test passes | proved |
| C58 tests of ropes from strings | exactly the strings on which each test passes | proved |
| C59 tests of the range map | what every position shows after each step (C47, C48) | proved, sizes up to 781000 |
| C60 bounds on stored lengths | a child's length is part of the root's | proved |
| C61 inverted ranges | after the two cuts the walk from the start never meets the end leaf, so it stops at the last leaf only | partial: false of `iter_range`, `update`, `drain`, `RangeNumMap` |
| C62 leaked drains | the arena without the taken leaves under unchanged nodes: every reader but `check` walks the nodes | partial: false once an element has been taken |
| C63 `check()` accepts only valid trees | levels from the walks of `check` to the root; determinism of depth; the reverse is `check_ok` | partial: false, as listed leaves are skipped; an equivalence with `Listed` |
| C64 range map with drains | C47 and C48 by induction, with the fill `⟨1, 4⟩` that drains keep | proved for positions up to 390000; any history panics or is right |
| C65 cursors outside | the assertion in `split_leaf_if_needed`; after the first cut the second cursor is still outside | proved |
| C66 cursors move with the text | the entries before and behind the edited ones are kept, so `posOf` changes by the change of length between them; in the leaf inserted into, the cases of `insert_by_path` one by one | proved |
| C67 a tree edited by position is a list | induction over the history with C01, C02, C10, C18 and C21; elements of positive length stay so, which bounds the height by the number of units | proved |
| C68 loops take one round per level | a larger allowance does not change a loop that has ended; with as many rounds as levels the loops end, by their specifications or by induction over the level; for the repair at the end of `drain`, each walk gives the node of the lowest level that still lacks children another child, or settles the level, so five walks per level are enough | proved |
| C69 ranges over elements of length zero | the cuts give three lists for cursors ordered on the sequence instead of by position; the rest of C18/C21 needs only that the first leaf behind a drained range is found, i.e. is not of length zero | partial: false if the element behind the end of a drained range has length zero; `Drain::new` (src/iter.rs:60-73) then takes the leaf after it for the first one behind the range, and the caches above the real one stay stale (`C69_drain_false`) |
| C70 every stored cache belongs to a block of the sequence; fields of fixed width do not overflow | the leaves below a node are a block of the leaf sequence (`order_context`), its cache is the aggregate of the block (`cache_block`); occupancy bounds slots; the operations that report split leaves are read off their definitions | proved |
| C71 reusing arena slots cannot be observed | simulation between arenas with generations and free list (`Model/GenArena.lean`) and the arenas of the model, for programs given as interaction trees; a program that inserts once more than there are generations tells them apart | proved |
| C72 to a program, the tree is a sequence | programs as interaction trees over 35 methods (`Spec/Calls.lean`), weakest preconditions on the sequence (`Spec/CallLaws.lean`); soundness by the theorems on the single methods; a loop with `next_elem`, a loop with `shift_path_by_one_offset`, a loop that pops the first leaf and an insertion at a queried position as programs | proved |
| C73 `OrdTreeMap` does not depend on the algorithm of `binary_search_by` | the search as a parameter of the map (`Model/Search.lean`), the documented contract (`Spec/Search.lean`); two searches that meet it agree wherever the map searches, so run both and compare; the two algorithms of the standard library and a linear one meet it | proved |
| C74 caches can be repaired by hand | a ledger of the element in each leaf and the element its caches were told about (`Spec/Repair.lean`); the nodes of the tree are at every moment those of a valid ghost tree that holds the second elements, since `recursive_update_cache` reads one leaf | proved |
| C75 a search with any finder ends at the first hit | a contract for one call of `find_node` (`Spec/Finder.lean`: it chooses the block where a predicate on prefixes becomes true); the descent keeps "false before the node, true behind it" | proved |
| C76 `iter_with_filter` with a closure that has a state | the iterator with its queue and the state of the closure (`Model/FilterIter.lean`); the tree as a nested list, gone through level by level (`Spec/Levels.lean`); the queue holds the rest of one row and the beginning of the next | proved |
| C77 `Debug` and `diagnose_balance` | the lines as records (`Model/Debug.lean`); the outline of the tree as a nested list (`Spec/Outline.lean`), tables of how often a number occurs (`Spec/Tally.lean`); every stored node is below the root exactly once | proved |
| C78 iterators call by call | the closure of `iter()`, `Iter::next` and the `filter_map` of `iter_range()` as state machines (`Model/LazyIter.lean`); a relation between a state and the items before it | proved |
| C79 fewest caches | all stored caches with the positions they stand for (`Spec/Pieces.lean`); the greedy choice on the nested list, compared with any cover by induction on levels and children | proved |
| C80 few nodes are changed | `Writes s s' n` (`Spec/Writes.lean`): the trees agree outside `n` stored nodes; a weak invariant on levels (`Ranked`) bounds the loops without the full invariant in between; for `drain`, `Touches s s' n` (the same but for freed nodes), with the rounds of the repair as in C68; `insert_many` and `Rope::insert` by induction on the elements, one level more per step at most | proved |
| C81 benchmarks and example | the programs as functions of their data (`Model/Bench.lean`); the rope agrees with the string after each action, as in C55 | proved |
| C82 unit tests | each test as a function of its data and of the expected values (`Model/UnitTests.lean`); it passes exactly if these are right | proved |
| C83 lawless `Ord` | the search over any function that stays in range, with a trivial relation; the proofs of C33 and C34 without the order; `LawlessStep` (`Spec/Lawless.lean`) lists what an operation may do, the accounting follows from it alone | proved |
| C84 wrong caches | a relation `TreeSame` (`Spec/Skel.lean`) of trees that differ in their caches only, carried through every function of the mutating operations; the twin in the trait without caches (`bare`) satisfies the contract of the callbacks trivially, so the theorems on histories apply to it | proved |
| C85 wrong caches and ranges | the relation of C84 through `drain` (iterator and drop), `update_leaf` and `update` (dirty map included); every tree that is valid apart from its caches (`SoundH`) has a twin without caches (`strip`), to which C18, C20 and C21 apply with a trivial contract | proved |
| C86 wrong searches | induction along the search path from the links alone (`queryF_any`), for a finder that picks any child (`PicksChild`, `Spec/AnyFinder.lean`); C85 for what is done with the cursor found, C65 for offsets behind the leaf | proved |
| C87 remaining operations | relational lemmas for the loops (`Proof/SkelSearch.lean`, `Proof/SkelMany.lean`); a finder that replays in the tree without caches the way taken in the given tree (`shadow`); then C22, C23 and `insertMany_all` for the trait without caches | proved |
| C88 histories of all operations | one relational lemma for all operations (`Proof/SkelEdit.lean`); `bstep` of C43 for the trait without caches and the tree without caches; induction over the history | proved |
| C89 recomputing caches | the climb of `recursive_update_cache` with an exception set that shrinks along the path (`Proof/Heal.lean`); every node has a leaf below it; right caches are determined by the elements, so the restored tree is the given one | proved |
| C90 hash orders | the propagation changes caches only and ends with right ones, which the elements determine (`tree_ext`), so two orders end with the same tree (`Proof/HashOrder.lean`); leaf indices of new pieces depend on the order of the second map (witness `C90_ranges_numbers_false`) | proved |
| C91 panicking closures | the four functions again, with the tree that unwinding leaves as a result (`Model/Unwind.lean`); forgetting it gives the functions of the other properties (`C91_forget`); only elements were written since the last state in which the tree was valid (`Over`), so C89 repairs it; lost units: witness `C91_ranges_lost` | proved |
| C92 caught panics | histories `UOp` of ordinary operations (C88) and unwound calls; the steps of C91 again on trees with any caches, the cuts of `update` by comparison with the tree without caches; repair by C89.  In histories `update` and `drain` need that no element has length 0; one unwound `update` without this is `C92_update_empty` | proved |
| C46 path capacity | shape of a tree built by `push` | proved, exact threshold of 2*6^9 |

### Statements found false of the code

Each has a theorem with a concrete witness next to the `_partial` theorem.

* `C02_false_on_empty`: `prepend` on an empty tree leaves `root_cache` stale.
* `C06_ord_false_when_emptied`: `check()` panics after the last key of an `OrdTreeMap` is deleted.
* `C13_false_at_node_end`: shifting from the end of the last element of a node resets the offset.
* `C19_false_empty`, `C19_false_at_end`: dropping an empty drain unwraps `None`.
* `C23_false_empty_range`, `C23_false_empty_range_panics`: empty ranges act on the first piece, or panic.
* `C24_false_none`, `C24_false_none_empty`, `C24_false_order`; `C25_false`, `C25_false_contiguous`.
* `C33_false`, `C33_false_everywhere`: `delete` ignores `found`. `C33_exact`: it takes the first binding not below the key, or else the last.
* `C35_unbounded_false`, `C46_iter_panics`: `NodePath` holds ten nodes; higher trees cannot be read.  `C35_nine_levels`: a rope that can
  be read, but a delete in it panics, since the cut makes the tree too high.
* `C36_false_panic`, `C36_false_content`: `Rope::clear` keeps the cursor cache.
* `C48_iter_false`, `C48_drain_false`: a run without a value does not advance the index of the enumeration.
* `C49_drain_then_remove_false`: in an `OrdTreeMap` a removal after a drain leaves a stale root cache; `C50_cut_panics`: a delete
  inside a character makes `to_string` panic; `C51_other_cache`: a write through `get_elem_mut` that changes the cache.
* `C61_iter_range_false`, `C61_update_false`, `C61_drain_false`, `C61_range_map_false`: an inverted range reaches to the end of the tree.
* `C62_leak_false`: a drain that is leaked after `next` leaves a tree that passes `check` and cannot be read.
* `C63_twice_false`, `C63_foreign_false`, `C63_cycle_false`: trees that pass `check` and are read wrongly or not at all.
* `C69_drain_false`: a drain that ends at an element of length zero leaves a stale root cache.
* Conditions that turned out to be necessary: `C20_neutral_needed` (removable elements must have a neutral
  cache), `C26_remove_after_collect_false` (a collected tree may have a node with one child),
  `C42_root_cache_stale`, `C16_unbounded_empty_panics`, `C21_empty_range` (the closure is not called,
  contrary to the documentation), `C22_panics`.

### Hypotheses that recur

* `Inv A m s`: the tree is valid and every node but the root has enough children.  `m : Fill` has two fields: a node on
  the left edge of the tree has at least `m.lo` children, any other at least `m.lo + m.d`.  A number `n` stands for `⟨n, 0⟩`.
  It is 6 for the ordered map, 5 in general, 1 after `from_iter`, and `m.drained` = `⟨1, m.lo + m.d - 1⟩` after a drain: the
  repair of the seam (`seal`) leaves thin nodes only on the left edge (`sealTree_occ` in `Proof/LackPath.lean`).  It is established by `new`, `from_iter` and
  kept by every operation theorem, so it is the set of states reachable through the API, not an assumption
  about one state.
* `Law`/`LawE`/`ContentLaw`/`DiffLaw`/`SubLaw`: the contract of the trait callbacks; proved for the
  instances of the repository.
* heights: `get_path` and `first_path` need at most 9 levels of internal nodes; `drain` and `update` split up to two leaves
  first, so their theorems ask for 8 (the height grows at most once), or for a call that does not panic.  `CutsRaise` (one of the cuts is
  below full nodes only, `FullAbove`) separates the two cases on 9 levels.  `Inv.low` and `C18_height` discharge these from a bound on the number of
  elements when `m` is at least 5, `Inv.height` (`Proof/SpineHeight.lean`) when the left edge is thin: rows grow by
  `x ↦ (m.lo + m.d) x - m.d`.

## 4. Trusted base

Lean's kernel; axioms at most `propext`, `Classical.choice`, `Quot.sound`; the reading of the Rust
source into the model; the assumed behaviour of dependencies: `thunderdome::Arena` (fresh indices are
never equal to earlier ones of the same arena — modelled by never reusing positions; C71 proves this simplification sound for an
arena with slots, generations and a free list, up to `2^32 - 1` insertions; that the tree uses its arenas only through these
operations is seen by reading: /repo/src never looks inside an index, and walks over a whole arena only where the order does not matter;
`get2_mut` panics on two equal indices, and the model checks this where the code calls it, except in `create_subtrees`, where one index is fresh), `heapless::Vec`
(bounded vector whose `push`/`insert` fail when full and whose `remove`/indexing panic out of bounds),
hash maps/sets of `fxhash` (iteration order arbitrary).

`slice::binary_search_by` is trusted only up to its documented contract (C73).

Not modelled: measuring and the data sets of the benchmarks, the text of `Debug` output (C77 models which lines are printed and what they say), timing/allocation, integer wrap-around of `usize`/`isize`
(unbounded `Nat`/`Int`; C70 bounds what is stored in the fixed-width fields of nodes), wrap-around of arena generations (but see C71), the division of
`f64`s in `internal_avg_children_num`.
`debug_assert!`s (src/lib.rs:894, 942, 1308-1309, 1321, 1494, 2005, 2961, src/generic_impl/gap_buffer.rs:184, 205) and
subtractions that would underflow are panics in the model, as in a debug build.  So a theorem that says "returns …" says it
of both kinds of build: no such check fails, and without it the code does the same.  The `_false`/`_panics` witnesses held
before these checks were put in (they do not rest on a `debug_assert!`).  Two checks are not written out because the model cannot
violate them: lib.rs:1585/1600 (`iter` on a root that is not internal) and 2964 (one node left, a pattern match in `fromIterLevels`).
Lazy iterators are modelled by the list of items they yield (`iter`, `iter_range`), and call by call as well (C78); `Drain` and `iter_with_filter` (C76) are modelled call by call.
Closures passed to the API are total state-passing functions; a panicking closure is an `Except` error
where the model says so (`update`, `update_leaf`), with the tree left behind in `Model/Unwind.lean` (C91), and re-entrancy is impossible in Rust anyway.

Model and code were compared by reading only; the Rust code was not run.  Two guards against a wrong model:
every definition cites its source lines, and `seeded/LOG.jsonl` records edits of the model (off-by-one,
forgotten updates, swapped arguments, …) together with the theorems that stop compiling.

`Props/Axioms.lean` prints the axioms of the property theorems during the build.
