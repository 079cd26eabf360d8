# Formal model of natasha/yargy in Lean 4

Property texts: `properties.jsonl`. Status and theorem names of each property: `MANIFEST.json`.
Mutation tests: `seeded/LOG.jsonl`. Lean sources: `lean/Verif`.

## 1. Trusted base

* The Lean 4 kernel. No `sorry`, no own axioms, no `native_decide`/`bv_decide`; all theorems depend on
  at most `propext`, `Classical.choice` and `Quot.sound` (checked by `vcheck`, which also replays the
  compiled modules). Concrete witnesses use `decide +kernel` or `rfl`, i.e. kernel computation. The tactic
  `kernel_rfl` (`Proofs/Couple.lean`) closes an equation with `Eq.refl` without checking it first; the kernel checks it.
* That the definitions in `Verif/Model` say what the Python code does. Every definition cites file and
  lines. The correspondence was made by reading; the Python code was not run.
* That the definitions in `Verif/Spec` say what the English property says. They use the data types of
  the model, not its algorithms.

## 2. How Python is represented

| Python | Lean |
|---|---|
| exceptions | `Except Err` (`Model/Basic.lean`), generators that raise midway: matches so far + error |
| strings | `Str = List Char`; `lower`, `isupper`, digits, … are functions of a record `Lang` (parameters) |
| loops that may not end | small-step machine (`Earley.step`) with a fuelled runner; `none` = not finished. Theorems about results hold for every fuel; termination theorems give a fuel |
| recursion of transformators | a parameter `limit` (Python: recursion limit); exceeding it = `recursionError` |
| object identity of chart states, tree nodes, leaves | allocation numbers from a counter |
| `hash(state)` and the set of hashes of a column | a parameter `hash : Key → H`; theorems about completeness assume it injective, `results_same_hash` shows results do not depend on the choice |
| in-place change of leaf tokens (`Leaf.constrain`) | a store from leaf identities to tokens, threaded through |
| rule objects: sharing, cycles, in-place changes | a heap (list of objects); address = position |
| `id(x)` of rule objects | a function `pid` on addresses. Injective `pid` = no object is freed while ids are remembered; non-injective `pid` models the reuse of addresses (C22) |
| iteration order of Python sets | a parameter `setOrder` (any function giving a permutation) |
| dictionaries | association lists with insertion order |

## 3. Modules

| Module (`lean/Verif/Model/…`) | Code | Simplifications |
|---|---|---|
| `Span` | `yargy/span.py` | none |
| `Token` | `yargy/token.py`, data part of `yargy/morph.py` | `raw` pymorphy records: a form has its normal form, grammemes and an `inflect` function |
| `Predicate` | `yargy/predicates/*.py` | `is_capitalized` & co. through `Lang`; user functions of `custom` are total parameters that may raise |
| `Tokenizer` | `yargy/tokenizer.py`, `yargy/tagger.py` | regular expressions are values of a small type with ordered lists of match lengths (backtracking order); `finditer` on the alternation of rules; character classes are parameters |
| `Grammar`, `Earley` | `yargy/parser.py:25-173,257-281,305-348` | a predicate that raises counts as refusing; `Raise` drops this simplification |
| `Raise` | `yargy/parser.py:257-303,326-337` once more, with predicates that may raise | C72 says how far this and the model above agree |
| `Compare` | `yargy/record.py:3-22`, `yargy/span.py:5-18`, `__attributes__` of `Token`, `Form`, `Match` | which classes define `__eq__` and `__hash__` is a table; hash functions of built-in values are parameters |
| `Tree`, `TreeOrder` | `yargy/tree/*.py` | drawings of trees: `RuleDot` |
| `Relation` | `yargy/relations/*.py` | none |
| `Parser` | `yargy/parser.py:176-230,283-303` | sorting is insertion sort with the code's `__lt__` (stable; the order is proved total on what is sorted, so the algorithm does not matter: `sorted_trees_unique`) |
| `Pipeline` | `yargy/pipelines.py` | the index is built once per rule |
| `Heap` | `yargy/rule/constructors.py`, `yargy/rule/transformators.py`, `yargy/rule/bnf.py` | one recursion level stands for several Python frames; predicates of a gazetteer are made on activation, in Python when its productions are made |
| `Compile` | `yargy/parser.py:240-255` | the well-formedness of the grammar is checked beforehand; in Python the chart would raise |
| `Text` | `yargy/parser.py:232-303`, `yargy/morph.py:118-133`: the methods of `Parser` on strings | an analyzer is a function from words to forms; a tokenizer without rules raises on every text, in `split` the model has no words then |
| `Leftover` | what `yargy/parser.py:252-255` leaves when it raises: `yargy/rule/transformators.py:34-66,145-158`, `yargy/rule/bnf.py:153-170` | objects made by the visit that raised are dropped: nothing refers to them (attributes are set in place only on objects with one parent, `yargy/rule/bnf.py:115-147`, made by the same visit) |
| `Api` | `yargy/api.py`, methods of `Rule`, `Predicate`, attributes and normalizers, `yargy/pipelines.py:139-187` | arguments are of the types a program can hold; objects of other classes are all alike, true and equal to no string; numbers are integers; a call that raises has made nothing that is referred to |
| `Listing` | `yargy/rule/bnf.py:14-78`, `Production.__str__`, `yargy/pipelines.py:36-40` | texts of predicates, interpretators and relations are parameters and do not raise (in Python the text of a predicate with a function without `__name__` does) |
| `Interp` | `yargy/interpretation/*.py` | values are passed, not mutated; user functions are parameters that may raise |
| `Equal` | `Record.__eq__`, `Record.__hash__` on facts, `Fact.as_json` (`yargy/record.py:6-22`, `yargy/interpretation/fact.py:32-34`) | objects not made by yargy are numbered, their equality and hash are parameters, and they equal no string, list or fact; identity of fact objects in lists is not modelled |
| `Cache` | `lru_cache` in `yargy/morph.py:134-143` | keys are (analyzer, word); aliasing of the cached list is not modelled (nothing in the package changes it) |
| `Dot` | `yargy/dot.py` | the `dot` program is not modelled; "well quoted" means: reads back with the DOT string syntax |
| `RuleDot` | `DotTransformator` (`yargy/dot.py:158-170`), `DotRuleTransformator`, `DotTreeTransformator`, `bfs_rule` and `dfs_tree` over all items | the predicate object at each place of a production is a parameter (`which`); nodes of trees are named by their place; labels are given |

`Verif/Spec/*` specifications, `Verif/Proofs/*` lemmas, `Verif/Properties/*` property theorems with
examples meeting their hypotheses.

Not modelled: `_repr_pretty_`/`__repr__`, `dot2svg`, pymorphy2 itself, the hotfix at import,
CPython's memory management beyond `pid`, Unicode tables, the regular-expression engine beyond what
the default rules use.

## 4. Properties: what is proved, and how

* **C01–C04** (`Properties/Spans`, `Findall`): invariant of the right-to-left filling of
  `nexts/covers/pointers`: the entry at `i` is the best selection of the suffix, the first in order among
  the best. Lifted to `findall` for every grammar and text.
* **C05, C06** (`Chart`, `Findall`): every chart state is a partial derivation (invariant of `step`).
* **C07**: closure of a finished chart + induction on derivations. *False in general*
  (`chart_complete_false`): an empty completion is not repeated for parents that arrive later. The states of
  a column come in rounds (`Spec/Levels.lean`: round 0 is there when the column is begun, round `n + 1` is
  added by dealing with round `n`); a parent that is there by the round in which the empty part is finished
  is not forgotten (`Proofs/Levels.lean`, an invariant with a ghost function from positions to rounds).
  `chart_complete_partial`, `extract_complete_partial`: all derivations with empty parts at such places
  (`Spec.DerivesRounds`) are found; `chart_exact_partial`: if the grammar shows that all its derivations are of
  this kind (`Spec.EmptiesFound`, which can be computed: `BoundsB.check`), exactly the derivations are reported.
  The grammar of the counterexample has no such bounds (`sampleGrammar_not_found`).
* **C08**: states with the same derivation have the same identity (`EarleyUnique`).
* **C09**: finiteness of the set of possible states under a decreasing measure; divergence
  (`chart_diverges_partial`) for cyclic grammars.
* **C10**: *false* for recursive start rules (`match_covers_false`: a suffix of the text is matched);
  proved otherwise.
* **C11, C13**: loop invariants of `findall`/`match` over sorted trees. **C12**: `nodeLt` is the
  lexicographic order of ranks.
* **C14, C15** gazetteers; **C40** `normalized()`: *false in general* (`shared_gazetteer_loses_line`): the
  interpretation of a gazetteer used twice is put on a node of its own, which does not know the line.
* **C16–C18** (`Rules`): words of rule graphs, defined by an inductive relation `Says` on heaps; every pass
  keeps the words of the root and of every old address. *C17 false* (`squash_adds_words`,
  `squash_loses_words`), *C18 false for bounds of 0* (`repeatable_zero`).
* **C22** (`Addresses`): all passes give the same result for any two injective `pid`
  (`addresses_irrelevant_partial`). *False when freed addresses are handed out again*
  (`address_reuse_breaks`, `forward_reuse_breaks`): the transformators remember `id`s of objects they drop.
  The witnesses show that the earlier object is unreachable when the later one is made; that CPython then
  reuses its address is possible but not part of the model.
* **C23–C25, C27, C28, C45** (`Agreement`, `Match`): one pass over pairs. *C25 false* for three words
  (`agreement_not_mutual`), *C45 false* (`accepted_inconsistent`), *C27 false* when an optional part in front
  of the main term is missing (`main_shifts`, `main_raises`).
* **C57** (`Features`): `Spec/Features.lean` says which gender, number, case a set of grammemes expresses. *False* for
  two words of common gender in the singular (`common_gender_disagrees`: `сирота` does not agree with itself).
* **C26**: *false* (`matches_influence_each_other`): leaves are shared between trees and narrowed in place.
* **C29–C32, C43** tokenizers and taggers (the tags known: `tag_known_iff`); **C33, C34** predicates. *C34 false for tags* (`tag_not_checked`).
* **C35–C38** interpretation. *False parts*: `repeatable_overwritten`, `json_keeps_facts`, `const_no_spans`.
* **C39**: *false*, `ValueError` (`findall_nullable_false`).
* **C41, C42** cache and DOT. *C42 false* for labels with backslashes (`backslash_breaks`).
* **C44** (`Compile`): composition of all the above from rule objects to `extract`. *False in general*
  (`parser_incomplete`, because of C07): `rule(rule('a').repeatable(), rule('b').optional())` does not find
  all of `a a a a`; without repetitions, three optional words in a row are enough (`optionals_incomplete`).
  `program_recognises_found_partial`: exact whenever the compiled grammar has the bounds of C07.
  `program_derives_iff`, `program_sound`, `program_recognises_partial` (`Labels`) ask nothing of the objects that are not part of the rule:
  they may be thought away (`Proofs/Cut`, by the simulation of C49). `program_recognises_optionals_partial`
  (`Optionals`) asks for something that is visible in the rule: optional parts stand directly after a predicate or after
  a rule that ends with one (`Spec/Optional.lean`). `Proofs/Tint*`: the objects get colours (never empty, ends in a
  token, optional, empty, …) that every pass keeps, and the colours of the compiled grammar are the bounds of C07.
* **C19, C50** (`Choices`): `Spec/Choices.lean` reads the choices off a rule graph as written (words with a
  mark for each alternative taken: `Picks`) and off a derivation (`marks`). `Proofs/Pick*`: every pass keeps
  the words with their marks, up to alternatives that offer the same twice (of which the earlier one stays);
  the order `Node.__lt__` defines on trees is the lexicographic order of the marks (`parse_order`). For C19
  the marks of repetitions are worked out (`rounds`). *C19 false in general* (`greedy_not_always`): the choice
  made within an earlier item comes before the choice to go on, so `or_(rule('a','b'), rule('a'), rule('b'))
  .repeatable()` prefers two repetitions to three in `a b a`. Proved if the items before the last one of the
  shorter parse make the same choices (`repetition_order_partial`), in particular for items that leave nothing
  to choose (`repetition_count`). `optional()` and `repeatable()` applied directly to each other are read as
  what they stand for (`settle`: something optional and repeatable, or the outer one of two alike), and
  squashing is shown to do the same (`Proofs/PickSettle`). `Properties/Star`: `.repeatable().optional()` is not
  greedy: by default having nothing (more) is listed first, so fewer repetitions are preferred; it becomes greedy
  with `optional(reverse=True)` (`star_order_partial`). Not covered: other quantifiers applied directly to
  quantifiers, or more than two (squashed, some with loss, C17), `morph_pipeline` (order of normal forms,
  C46), and rules left compiled by an earlier parser that hold gazetteer lines (`Orderly.fresh`: copying a
  compiled rule may drop what it carries, C21).
* **C53** (`Outlines`): `Spec/Outline.lean` says about rule objects which structures they describe: the terms of
  `rule(…)` are one group with the main one marked, repetitions nest to the right, what is left out is an
  empty group, a group of one is that one, a gazetteer match is its line with the words of that line. The words of C50 also carry the number of parts and that of the main
  one in front of every sequence, so they are a prefix code of the structure (`code_inj`), and the passes are
  known to keep them. `outline_main` ties the main parts to the head that agreement looks at (C27).
* **C20** (`Labels`): words carry brackets for names, interpretators or relations, `Spec/Labels.lean` reads them off a
  tree. `Proofs/BnfTrack`: invariant of the BNF pass: which object stands for which rule, with which chain of
  wrappers, given that an object used at least twice is lifted before something is put on it.
  `Proofs/BnfLabels`: so the words stay the same, but for the start rule: its use by the parser is not
  counted, and a wrapper around its only use inside itself lands on all of it. *False in general* because of
  this (`extra_interpretation`). If the rule of the parser is itself a wrapper of the kind looked at,
  nothing is added (`labels_kept`, `match_labels`; `Proofs/WrapRoot`). An empty name counts as no name, and the
  next name takes its place (`EmptyNames`). Rules without a
  name are given generated ones (`R` and a number); names of that form do not count as names on either side,
  so that the generated ones add nothing (`realName`).
* **C54** (`Facts`): `Spec/Facts.lean` evaluates a word of C20: tokens for its predicates, an opening bracket
  starts an interpretation, a closing one calls it (`evaluate`; `shed` takes away brackets around nothing, which
  are parts that pruning removes). Composition of C20 and C37; `compileRule_root` shows that the compiled start
  rule still carries the interpretation put on last. `Proofs/Bare`: without `normalized()` nothing looks at
  dictionary lines; without gazetteers there are none. *Not covered*: both together (C40).
* **C55** (`Api`): `Spec/Api.lean` describes a program as a sequence of calls with what it holds (`Does`) and says,
  in terms of the arguments, which words (`CallWords`), labels (`Label`), parts (`ArgForms`) and choices
  (`ArgPick`) the returned rule has, and which calls raise (`Refused`). `Proofs/Api` (`apply_ok`): what each call
  makes; `Proofs/ApiWords`: its words; `Proofs/ApiRuns`: later calls only add objects and define forward rules;
  `Proofs/ApiFaults`: each call either works and is not `Refused`, or raises just the exception listed. Every such
  program, with parsers built in between, is a `Run` of `Spec/History.lean` (`api_program`), so the claims on
  programs hold for what is written with the API. The equations for words are about programs that have not built
  a parser: building activates predicates in place (C21, C48).
* **C56** (`Api`): *false*: `define` on a wrapper goes to the forward rule inside and returns that
  (`define_drops`: `forward().interpretation(F).define('a')` has no interpretation). Proved for bare forward rules.
* **C59** (`Listing`): names of compiled rules are followed back to the rules the user named
  (`Proofs/Titles`, one more property that the passes keep: `Titled`), on the heap cut down to what the rule
  reaches, so names elsewhere in the program do not matter. `Generates` (`Spec/Listing.lean`) reads lines as
  productions; it is compared with the words of the rule (`Reads`, as in C44). *False in general*
  (`printed_twice`: `rule('a', rule('b').named('R0'))` prints two lines for `R0`).
* **C60** (`EndToEnd`): `Spec/Thin.lean` says what is left of a rule when no predicate may be used, forward rules being
  letters (`Open`); a rule uses up tokens (`Consumes`) if what is repeated without bound has no empty word, and if
  forward rules that take the place of others go down in some order. `Proofs/Thin*`: every pass keeps this
  (`Tame`), for the rules it copies and for the forward rules it makes of repetitions, which are put in between in the
  order; at the end the productions of the compiled grammar are acyclic (`compileRule_edges`), and C09 applies.
  Objects outside of the rule are cut away first (`Proofs/Cut`). Simplification: `rule.optional().repeatable()` does
  not count as using up tokens, although squashing makes it harmless. The condition is needed (`Endless`):
  the parser of `rule(rule('a').optional()).repeatable()` is built and never ends on a text with an `a`
  (`hollow_never_ends`), as its rule `R -> S R | S` predicts itself for ever once `S` is found (`hollow_runs`).
* **C61** (`EndToEnd`): composition of C51 (it builds), C60 (it ends), C44 (it finds what the rule accepts), C03/C04
  (what `findall` chooses), C10 and C39. *Partial*: without relations, and with optional parts only directly after a
  token (`fresh_correct_optionals_partial`, `Optionals`), as C07, C25, C27 are false otherwise; `program_findall_partial` and `program_match_partial` allow empty parts that the parser finds (C07).
* **C62, C63** (`Pictures`): `Spec/RuleDot.lean` says what a drawing shows (`Drawing`) without walking: one line per
  thing inside of the root, arrows by the relation "is part number `k` of". `Proofs/Picture`: breadth-first walks over
  items of any kind, numbering of lines; `RulePicture`, `TreePicture`: the two transformators. `picture_arrow` reads
  the parts back from the arrows, hence `same_picture`. No conditions besides distinct addresses.
* **C64, C65** (`Equal`): `Spec/Equal.lean` defines when values are equal by induction on their structure
  (`EqualVal`), and what an attribute of `Cls(**kwargs)` is meant to be (`Expected`). `Record.__eq__` looks
  attributes up by name; that this compares the attributes one by one needs that facts have the attributes of their
  class (`Framed`), which holds of all facts of matches (`match_facts_framed`). *C65 is false as stated*: lists have no
  hash (`repeatable_fact_unhashable`).
* **C66** (`Text`, `Surroundings`): what a gazetteer accepts is read off its lines (`accepts_gazetteer`); with C61 this
  gives `match` (`gazetteer_match`, an equivalence), and with C69 any text around (`gazetteer_line_found`).
  `Reliable` (`Spec/Text.lean`) is what is asked of the analyzer.
* **C67** (`Text`): composition of C29 (tokens cover the text), C31 (taggers keep texts), C05 (matches consist of tokens of
  the chart). `PieceOf` (`Spec/Text.lean`) speaks of the string only.
* **C68** (`Separate`): a pattern without `c` finds the same before and after `c` as alone (`re_separates`,
  `Proofs/TokenLocal`); the cutting of a text is unique (`cut_unique`), so the two cuttings put together are the one of
  the whole.
* **C69** (`Surroundings`): predicates do not look at the place of a token (`call_moved`), so what the rule accepts only
  depends on the tokens of the range; if the parser reports what the rule accepts (C61) the claim follows.
  *False in general* (`surroundings_matter`): with `A = rule('a').optional()` and
  `or_(rule('x', A, 'c'), rule(A, 'b').named('R').named('Q'))` the text `b` has a match, and `x b` has none.
* **C70** (`Phrase`): composition of C61 (what `extract` reports is what the rule accepts), C33 (what predicates mean) and
  C47 (activation). `SaidAt` and `KnownTo` (`Spec/Phrase.lean`) speak of tokens and of the tokenizer only. Predicates
  must not raise on the tokens (`Quiet`).
* **C71** (`Compose`): a part of a complete rule is complete (`part_complete`, `part_complete_optionals`), so C61 holds
  for the parsers of the parts too; what a rule accepts is composed of what its parts accept (`accepts_composed`). `Composed` (`Spec/Compose.lean`)
  is a relation between what parsers report and does not mention grammars. *False in general* (`alternative_lost`): with
  optional parts `or_` may find nothing where one of its alternatives finds something on its own.
* **C72** (`Raise`): `Model/Raise.lean` is the chart with predicates that raise. `runE_cases`: step for step the same as
  the chart where exceptions are refusals, until the first exception. What the chart asks is of interest (`Wanted`,
  an invariant of all states); a predicate of a compiled grammar is a predicate of the rule, activated, or a word of
  a gazetteer (`wanted_comes`); by induction over predicates only functions of the user, `int` and the first letter
  of an empty value raise (`cause`). So the other properties hold with exceptions too, for texts without such tokens
  (`quiet_same`, `text_correct_raising_partial`). That everything of interest is asked is proved for predicates after
  predicates (`chart_must_raise_partial`) and false in general, since the chart misses derivations with empty parts (`exception_missed`).
* **C73** (`Compare`): `==` as the code does it, attribute by attribute, against `SameToken` (`Spec/Compare.lean`), which does
  not mention classes. By induction on predicates, `call` and `constrain` do not see more of a token than `==` does.
  `findall_matches_differ` from C67. Limits: `equal_tokens_inflected_otherwise`, `equal_matches_other_alternatives`.
* **C74** (`Compare`): `hash` as Python resolves it, from a table of what the classes define; records as values.
* **C75** (`Pair`): the grammar that such a rule compiles to is computed for all predicates and relations at once
  (`Proofs/Couple`) and carried over to other programs by C49. `Proofs/CoupleChart`: the derivations are the pairs, each leaf
  of the chart belongs to the first or to the second part (`chart_owned`), so the matches that `extract` checks share no
  leaf, and whether one passes does not depend on the others (C27). Which forms a predicate leaves: `FormAllowed`;
  which forms the tokens of a match have: `PairTokens` (`words_tokens`, from the two nested loops of the check).
  The forms of the second word may come in another order (`pair_second_reordered`).
  The same rule object as both parts is excluded; for it the claim is false (`pair_shared_false`): the parts share
  leaves then, and a pair narrows the forms of a word for the next pair.
* **C76** (`Slots`): composition of C54 (`match_fact`, now for the matches of all three methods, `Returned`) and C60 on
  texts. The rule has one word only, with brackets for its slots (`Slots.reads_slots`); C54 evaluates it on the tokens
  of the match, which by C77 are those of the text with the forms that the predicates leave; so `normalized()` and
  `inflected()` are determined by the text too (`SlotText`); `Proofs/SlotFold` computes the fact and its JSON
  from what the slots give (`stateOf` is the state of `InterpretatorFact` after any number of attributes). The values
  are described without the model: `Given` goes along the parts with the words of the text, `factWith` and `jsonWith`
  pick for each attribute of the class.
* **C77** (`Exact`): without relations the only thing that changes tokens is `constrained` when a leaf is made. The
  invariant of the chart (`StoreExact`, `loopInv_exact`) says that each stored token is the one of the text, filtered
  by its own predicate; loading and pruning keep that. `Spec/Exact.lean` has the forms that a predicate leaves
  (`keptBy`, by `FormAllowed`), and `KeptFrom` goes along the text. `forms_exact` is about the tokens, `fact_exact`
  about the fact. With relations the forms are those of C75, or fewer. `and_` and `or_` have no `constrain` of their own, so
  a noun found by `and_(gram('NOUN'), …)` keeps its verb forms and may be normalized as a verb (`and_leaves_forms`).
* **C78** (`Filling`): C76 without its restriction to one sequence. `Fills` says which rules are meant (attributes are not
  nested). The words of such a rule are sequences of parts (`Filling.reads_fills`), `fact_exact` (C77) says that the fact
  is what the interpretations make of one of these words, and the computation of C76 gives its values; parts that are
  empty in the text are left out (`present`). Ranges by C61.
* **C79** (`Nested`): C78 for any interpretations inside a fact, to any depth. `Dressed` only says that interpretations are
  written with `.interpretation(…)` and that attributes are those of their classes. The specification reads the word of the
  match, with a bracket for each interpretation: `Told` says what is given to a fact of a class, `Meant` what an
  interpretation makes of what is inside, `Strewn` what stands inside. `Proofs/NestFold` computes what the interpretations
  make of the items that such a word leaves, by induction on the word. Facts directly inside facts are merged (`addStep`:
  what the inner fact has got replaces what there was, also lists) or, if of another class, passed over, as are attributes of
  other classes and normalizers without an attribute around them (`IsStray`); but what they raise comes out. For
  interpretations on top of each other `worn` says what the outer one makes of the inner one, and `mixedWorth` what an
  interpretation makes of several parts (`TypeError`, except for constants).
* **C80** (`Related`): C79 with relations. `Told` (C79) has as a parameter which text a slot works with; the computation of
  C79 (`Nesting.told`) holds for any tokens for which the slots do what the parameter says, and C54 (`match_fact`) gives
  the tokens: those of the text with some forms removed. Which forms are left is C24, C25, C75; matches of one text may
  take forms from each other (C26).
* **C81** (`Nested`, `Related`): what a part gives to an attribute in `Told` (C79) is its value, its JSON and its place;
  `giftPlaces` collects the places of what is left in the end, attribute by attribute, and `InTextOrder` says that `spans` are
  these, sorted by start. Which spans there can be at all, for any interpretations, is C35.
* **C46** (`Determinism`): independence of hash values for all grammars; independence of set order except
  for words whose normal forms lead to different lines of one `morph_pipeline` (`gazetteer_order_matters`).
* **C47, C48** (`Reuse`): `Spec/History.lean` describes programs as sequences of making a rule, defining a
  forward rule, building a parser. The frame theorem for `compileRule` (`compileRule_compiled`,
  `Proofs/FrameCompile`) says what a construction leaves alone, what it changes and what it adds. Compiled
  objects have activated predicates only, and activating them again does nothing; so they are never changed
  (`parsers_independent`). Constructions that raise are steps of a history too: the program catches the
  exception and goes on with the objects as they are then (`compileLeft`).
* **C58** (`Failures`): `Model/Leftover.lean` says what a construction that raises leaves behind.
  `Proofs/Leftover` runs the frame theorem of C48 up to the point where it stops (`compileLeft_stopped`), with
  any property of the heap that the single steps keep (`Enduring`, `Proofs/HeapKeeps`); one such property is
  that gazetteers can be indexed (`Filed`), so that a rule that was compiled always gives a parser
  (`build_refused_iff`). *Partial*: a failed construction does have effects: what it has activated stays
  activated with its tokenizer (`failure_keeps_tokenizer`), forward rules are left half compiled.
* **C49** (`Locality`): simulation. `Proofs/Twin`, `Proofs/TwinCompile`: if the objects of two heaps
  correspond to each other under a renaming of addresses that is injective on what can be reached
  (`Spec.Alike`), every pass keeps them so, step by step, with the same exceptions. `Proofs/Renaming`: the
  chart, the trees and the matches of a renamed grammar are the renamed ones. `Proofs/RenamedFacts`: facts are
  the same. `SameBuilds` in `Spec/Locality.lean` is what a user can observe of two parsers.
* **C21** (`Rebuild`): *false in general*: `rebuild_recursion` (the first construction leaves compiled rules
  inside the forward rule, and copying those never ends), `rebuild_loses_label` (`RuleTransformator.visit_Rule`
  makes a plain `Rule` of a `BNFRule`, dropping its labels), `rebuild_keeps_tokenizer`. Proved without forward
  rules: along any history the objects of the rule stay as they are or become activated, activating them again
  changes nothing, so both constructions go on from the same objects and the simulation of C49 applies.
* **C51** (`Builds`): totality of `Parser.__init__`. `Proofs/Total*`: a rule has a depth if nothing contains
  itself except through forward rules (`Deep`); each pass succeeds with a recursion limit beyond that depth
  (bounded repetitions count double, because squashing visits them again), memoises only what it finished, and
  leaves a rule of the same sort (`Ripe`); the forward rules it makes itself (repetitions) are not visited
  again in the same pass (`barren`). Gazetteers compiled in the last pass keep their keys (`Keyed`), so the
  index can be built. Forward rules may be defined by optional rules and bounded repetitions: each pass keeps a
  chain of such quantifiers (`Soft`, `Hard`), and the pass that replaces quantifiers makes a choice or a sequence
  of the outermost one. *False as stated*: `forward_to_repeatable_never_builds` (the repetition becomes a forward
  rule, and `define` refuses forward rules), `forward_to_once_never_builds`, `rebuild_recursion`.
* **C52** (`Builds`): the results at two limits are equal unless the smaller one is cut off
  (`Proofs/TotalFirm`), method by method.

Assumptions made in theorem statements (each shown satisfiable by an `example`): `PredictSound`,
`PredictLossless` (gazetteer index; proved of all rules of the library: `library_predict`), injective `hash`
(see above), injective `pid`, `ConstrainNarrows` (proved of all predicates: `pred_narrows`), `GoodRule`
(rule objects as the constructors make them, and no nesting of repetitions that squashing changes).

## 5. Mutation tests

`seeded/LOG.jsonl`: one line per wrong program. Edits are made to the model in a scratch copy and the project is
rebuilt. `theorems_failed` are the first declarations that fail (what depends on them is not built);
`false_of_mutant` names property theorems whose statement is false of the mutant.
A line with `result` "survived" names the theorems added or tightened because of it in `theorems_tightened`; the
same edit is then run again under the same id with the letter `b`.
`result` "build fails" alone does not show that a claim's theorem is false of the mutant: the first failure is often a
lemma about the edited definition. Lines whose `note` says so do not count as kills: M157 and M355 were not accepted as
definitions (run again in another form with the letter `c`). M220, M221 and M359 were first noticed by an example only;
theorems were added. M356 survived and is equivalent on reachable states.
