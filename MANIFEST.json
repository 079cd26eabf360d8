{
 "claims": [
  {
   "property": "C01",
   "status": "proved",
   "theorems": [
    "Yargy.findall_ordered",
    "Yargy.findall_selects",
    "Yargy.resolve_ordered",
    "Yargy.resolve_selection"
   ],
   "note": ""
  },
  {
   "property": "C02",
   "status": "proved",
   "theorems": [
    "Yargy.findall_selects",
    "Yargy.findall_independent_partial",
    "Yargy.resolve_max_coverage"
   ],
   "note": ""
  },
  {
   "property": "C03",
   "status": "proved",
   "theorems": [
    "Yargy.findall_selects",
    "Yargy.resolve_leftmost"
   ],
   "note": ""
  },
  {
   "property": "C04",
   "status": "proved",
   "theorems": [
    "Yargy.findall_selects",
    "Yargy.resolve_drops_only_overlapping",
    "Yargy.resolve_keeps_disjoint"
   ],
   "note": ""
  },
  {
   "property": "C05",
   "status": "proved",
   "theorems": [
    "Yargy.findall_matches",
    "Yargy.match_matches",
    "Yargy.extract_matches",
    "Yargy.chart_states_sound",
    "Yargy.chart_matches_sound",
    "Yargy.chart_matches_yield"
   ],
   "note": ""
  },
  {
   "property": "C06",
   "status": "proved",
   "theorems": [
    "Yargy.findall_matches",
    "Yargy.match_matches",
    "Yargy.extract_matches"
   ],
   "note": ""
  },
  {
   "property": "C07",
   "status": "partial",
   "theorems": [
    "Yargy.extract_complete_partial",
    "Yargy.chart_complete_partial",
    "Yargy.chart_exact_partial",
    "Yargy.optionalTwice_found",
    "Yargy.sampleGrammar_not_found",
    "Yargy.chart_complete_false"
   ],
   "note": "False in general (witness chart_complete_false); proved for derivations whose empty subtrees are finished no earlier than the state that waits for them comes (rounds of a column, Spec/Levels.lean): right after a token, after a subtree that ends with a token, at the beginning of the whole rule, first in the only production that uses them, and so on; exact for grammars all of whose empty parts are at such places, which can be computed."
  },
  {
   "property": "C08",
   "status": "proved",
   "theorems": [
    "Yargy.extract_distinct",
    "Yargy.chart_completed_unique",
    "Yargy.chart_matches_unique"
   ],
   "note": "On derivations; two trees can coincide after the removal of their empty parts."
  },
  {
   "property": "C09",
   "status": "partial",
   "theorems": [
    "Yargy.findall_terminates",
    "Yargy.match_terminates",
    "Yargy.extract_terminates",
    "Yargy.chart_terminates",
    "Yargy.chart_stable",
    "Yargy.chart_deterministic",
    "Yargy.chart_diverges_partial",
    "Yargy.hollow_runs",
    "Yargy.hollow_never_ends"
   ],
   "note": "Termination proved for all acyclic grammars (rules that give acyclic grammars: C60); divergence proved for needed cycles whose derivations have empty subtrees only at the places covered by C07."
  },
  {
   "property": "C10",
   "status": "partial",
   "theorems": [
    "Yargy.match_covers_partial",
    "Yargy.match_covers_false"
   ],
   "note": "False for recursive start rules (witness match_covers_false); proved when no production mentions the start rule; in general only the end of the text is covered."
  },
  {
   "property": "C11",
   "status": "proved",
   "theorems": [
    "Yargy.match_iff",
    "Yargy.findall_iff",
    "Yargy.find_leftmost",
    "Yargy.extract_raises_iff",
    "Yargy.findall_ok",
    "Yargy.match_ok"
   ],
   "note": "Including the exact condition under which an exception is raised instead."
  },
  {
   "property": "C12",
   "status": "proved",
   "theorems": [
    "Yargy.treeLt_preferred",
    "Yargy.preferred_irrefl",
    "Yargy.preferred_trans",
    "Yargy.preferred_total",
    "Yargy.reported_comparable",
    "Yargy.sorted_trees_unique"
   ],
   "note": ""
  },
  {
   "property": "C13",
   "status": "proved",
   "theorems": [
    "Yargy.match_least",
    "Yargy.findall_least",
    "Yargy.findall_independent_partial"
   ],
   "note": ""
  },
  {
   "property": "C23",
   "status": "proved",
   "theorems": [
    "Yargy.gender_symmetric",
    "Yargy.number_symmetric",
    "Yargy.case_symmetric",
    "Yargy.relation_symmetric"
   ],
   "note": ""
  },
  {
   "property": "C24",
   "status": "proved",
   "theorems": [
    "Yargy.reading_accepted",
    "Yargy.validate_subset",
    "Yargy.validate_keeps_consistent"
   ],
   "note": ""
  },
  {
   "property": "C25",
   "status": "partial",
   "theorems": [
    "Yargy.accepted_forms_agree_partial",
    "Yargy.validate_mutual_partial",
    "Yargy.agreement_not_mutual"
   ],
   "note": "False in general (witness agreement_not_mutual: a single pass over three words); proved for pairs of words that are in no other pair."
  },
  {
   "property": "C26",
   "status": "partial",
   "theorems": [
    "Yargy.extract_independent_partial",
    "Yargy.findall_independent_partial",
    "Yargy.matches_influence_each_other"
   ],
   "note": "False in general (witness matches_influence_each_other: leaf objects are shared between trees and narrowed in place); proved when no reported tree has a related word of another."
  },
  {
   "property": "C27",
   "status": "partial",
   "theorems": [
    "Yargy.related_heads_partial",
    "Yargy.main_shifts",
    "Yargy.main_raises"
   ],
   "note": "False when an optional part before the designated term is absent (witnesses main_shifts, main_raises); proved otherwise."
  },
  {
   "property": "C39",
   "status": "partial",
   "theorems": [
    "Yargy.findall_nullable_start",
    "Yargy.findall_empty_raises",
    "Yargy.findall_nullable_false",
    "Yargy.findall_matches"
   ],
   "note": "False: ValueError (witness findall_nullable_false); what is proved is that no empty match is ever returned and that a start rule with an empty alternative always raises."
  },
  {
   "property": "C45",
   "status": "partial",
   "theorems": [
    "Yargy.passes_iff_reading_partial",
    "Yargy.reading_accepted",
    "Yargy.accepted_iff_consistent_partial",
    "Yargy.accepted_inconsistent"
   ],
   "note": "False in general (witness accepted_inconsistent); proved when the related pairs are separate."
  },
  {
   "property": "C14",
   "status": "proved",
   "theorems": [
    "Yargy.pipeline_predict_iff",
    "Yargy.pipeline_predict_order",
    "Yargy.library_predict"
   ],
   "note": ""
  },
  {
   "property": "C15",
   "status": "proved",
   "theorems": [
    "Yargy.pipeline_ok_iff",
    "Yargy.pipeline_error",
    "Yargy.pipeline_derives_iff",
    "Yargy.pipeline_extract_iff",
    "Yargy.pipeline_terminates"
   ],
   "note": ""
  },
  {
   "property": "C28",
   "status": "proved",
   "theorems": [
    "Yargy.pred_narrows",
    "Yargy.findall_keeps_tokens",
    "Yargy.match_keeps_tokens",
    "Yargy.extract_keeps_tokens"
   ],
   "note": ""
  },
  {
   "property": "C33",
   "status": "proved",
   "theorems": [
    "Yargy.predicate_means",
    "Yargy.and_means",
    "Yargy.or_means",
    "Yargy.not_means",
    "Yargy.predicate_answers",
    "Yargy.accepts_means",
    "Yargy.compare_not_int",
    "Yargy.gram_no_forms",
    "Yargy.gram_keeps",
    "Yargy.single_keeps",
    "Yargy.caseless_means",
    "Yargy.in_caseless_means"
   ],
   "note": ""
  },
  {
   "property": "C34",
   "status": "partial",
   "theorems": [
    "Yargy.rule_activates_iff_partial",
    "Yargy.unknown_refused",
    "Yargy.activated_rule_runnable",
    "Yargy.activate_iff_known_partial",
    "Yargy.activated_runnable",
    "Yargy.tag_not_checked",
    "Yargy.parser_unknown_tag"
   ],
   "note": "False for tags (witness tag_not_checked); proved for grammemes and token types, for predicates and for whole rules (recursive, shared)."
  },
  {
   "property": "C46",
   "status": "partial",
   "theorems": [
    "Yargy.results_same_hash",
    "Yargy.results_same_order_partial",
    "Yargy.gazetteer_order_matters"
   ],
   "note": "Independence of hash seeds and addresses: proved for all grammars. Independence of set iteration order: proved unless a word has different normal forms with which different lines of one morph_pipeline begin; in that case it is false (witness)."
  },
  {
   "property": "C29",
   "status": "proved",
   "theorems": [
    "Yargy.default_tokens_cover",
    "Yargy.default_tokens_no_space"
   ],
   "note": ""
  },
  {
   "property": "C30",
   "status": "proved",
   "theorems": [
    "Yargy.tokens_by_priority",
    "Yargy.token_first_rule",
    "Yargy.rules_in_force",
    "Yargy.added_first",
    "Yargy.token_types",
    "Yargy.removed_absent",
    "Yargy.remove_iff",
    "Yargy.no_rules_raises",
    "Yargy.failed_add_breaks",
    "Yargy.pattern_exact",
    "Yargy.email_shape",
    "Yargy.email_iff",
    "Yargy.phone_digits"
   ],
   "note": "failed_add_breaks: an add_rules call that raises has already changed the rule list."
  },
  {
   "property": "C31",
   "status": "proved",
   "theorems": [
    "Yargy.morph_tokens"
   ],
   "note": ""
  },
  {
   "property": "C32",
   "status": "proved",
   "theorems": [
    "Yargy.join_exact",
    "Yargy.join_keeps_text",
    "Yargy.join_roundtrip"
   ],
   "note": ""
  },
  {
   "property": "C43",
   "status": "proved",
   "theorems": [
    "Yargy.compose_left_to_right",
    "Yargy.compose_one",
    "Yargy.compose_none",
    "Yargy.pass_identity",
    "Yargy.compose_tags",
    "Yargy.tag_known_iff",
    "Yargy.tagged_keeps",
    "Yargy.tagger_keeps",
    "Yargy.taggers_keep"
   ],
   "note": ""
  },
  {
   "property": "C35",
   "status": "partial",
   "theorems": [
    "Yargy.parts_assign",
    "Yargy.fact_state",
    "Yargy.fact_attributes",
    "Yargy.fact_ordinary",
    "Yargy.fact_repeatable_partial",
    "Yargy.fact_repeatable_last",
    "Yargy.repeatable_overwritten"
   ],
   "note": "Attributes hold the last value assigned (ordinary) or all values in order (repeatable), shown by an independent assignment relation; a fact nested in a fact of the same class is merged key by key and overwrites repeatable lists, so the claim for repeatables is proved for facts without such merging, with a witness of the failure."
  },
  {
   "property": "C36",
   "status": "partial",
   "theorems": [
    "Yargy.json_agrees_partial",
    "Yargy.json_fields",
    "Yargy.json_keeps_facts"
   ],
   "note": "as_json equals the JSON image of the fact with empty values removed when user functions and defaults return plain values; witness: a user function returning a fact is left as an object."
  },
  {
   "property": "C37",
   "status": "proved",
   "theorems": [
    "Yargy.interpret_follows",
    "Yargy.interpret_raises",
    "Yargy.events_tokens",
    "Yargy.match_tokens_read"
   ],
   "note": "Interpretation equals reading the tree left to right with a stack of open interpretations; tokens read are the tokens of the match."
  },
  {
   "property": "C38",
   "status": "partial",
   "theorems": [
    "Yargy.fact_spans_partial",
    "Yargy.const_no_spans"
   ],
   "note": "Proved when no constant is used as interpretation; witness: a constant makes spans raise AttributeError."
  },
  {
   "property": "C40",
   "status": "partial",
   "theorems": [
    "Yargy.normalized_words",
    "Yargy.inflected_words",
    "Yargy.normalized_exists",
    "Yargy.normalized_value",
    "Yargy.gazetteer_value",
    "Yargy.gazetteer_fact",
    "Yargy.shared_gazetteer_loses_line"
   ],
   "note": "False in general: if a gazetteer is used twice in a rule, normalized() on it gives the normal forms of the words instead of the dictionary line (witness shared_gazetteer_loses_line). Proved for gazetteer rules that keep their own node, and for the normal forms of all other rules."
  },
  {
   "property": "C41",
   "status": "proved",
   "theorems": [
    "Yargy.cache_transparent",
    "Yargy.cache_holds",
    "Yargy.cache_bounded"
   ],
   "note": "functools.lru_cache modelled as a list of keys and values, most recent first; keys are pairs of analyzer and word. That callers share the returned list objects is outside the model (no code in the package changes them)."
  },
  {
   "property": "C42",
   "status": "partial",
   "theorems": [
    "Yargy.quote_reads_partial",
    "Yargy.quote_reads_iff",
    "Yargy.backslash_breaks",
    "Yargy.style_reads_partial",
    "Yargy.graph_numbers"
   ],
   "note": "Quoting is proved for labels without backslashes and characterised exactly for all labels; witness: a label ending in a backslash. Numbers: proved for every graph."
  },
  {
   "property": "C16",
   "status": "proved",
   "theorems": [
    "Yargy.replacing_keeps_words"
   ],
   "note": "for the four passes after squashing, every rule graph (recursive, shared) with bounds the constructors accept, every label kind; object addresses are taken to be unique while a transformator runs (see C22), and the statement is about constructions that do not raise RecursionError"
  },
  {
   "property": "C17",
   "status": "partial",
   "theorems": [
    "Yargy.squash_keeps_words_partial",
    "Yargy.normalized_keeps_words_partial",
    "Yargy.squash_adds_words",
    "Yargy.squash_loses_words"
   ],
   "note": "false of the code when a lower bound of two or more meets another quantifier: squash_adds_words and squash_loses_words are counterexamples; proved for all rule graphs without such a nesting"
  },
  {
   "property": "C18",
   "status": "partial",
   "theorems": [
    "Yargy.repeatable_exact",
    "Yargy.repeatable_negative",
    "Yargy.repeatable_zero",
    "Yargy.repeatable_normalized"
   ],
   "note": "false for bounds of 0, which are ignored instead of refused (repeatable_zero); proved for all other bounds, before normalisation always, after it for calm rules (C17)"
  },
  {
   "property": "C44",
   "status": "partial",
   "theorems": [
    "Yargy.parser_derives_iff",
    "Yargy.parser_sound",
    "Yargy.program_derives_iff",
    "Yargy.program_sound",
    "Yargy.program_recognises_found_partial",
    "Yargy.program_recognises_partial",
    "Yargy.program_recognises_optionals_partial",
    "Yargy.parser_recognises_partial",
    "Yargy.parser_incomplete",
    "Yargy.optionals_incomplete"
   ],
   "note": "The compiled grammar derives exactly what the rule accepts, and every reported match is accepted by the rule (both for all rules whose repetitions are not changed by squashing, C17). That every accepted range is reported is false in general (witnesses parser_incomplete, optionals_incomplete) and proved, without agreement relations, for rules without empty parts, for rules whose optional parts all stand directly after a predicate, a gazetteer or a rule that ends with a predicate (Spec/Optional.lean), and for rules whose compiled grammar has its empty parts where the parser finds them (a condition that can be computed)."
  },
  {
   "property": "C22",
   "status": "partial",
   "theorems": [
    "Yargy.addresses_irrelevant_partial",
    "Yargy.address_reuse_breaks",
    "Yargy.forward_reuse_breaks"
   ],
   "note": "Proved: the compiled grammar is the same for any two assignments of distinct addresses. False when an address is reused while a transformator still remembers it: two rules compiled with one reused address lose words (address_reuse_breaks, forward_reuse_breaks). That the interpreter really reuses those addresses is an assumption of the witnesses; whether it does depends on the allocator."
  },
  {
   "property": "C47",
   "status": "proved",
   "theorems": [
    "Yargy.built_parser_fit",
    "Yargy.built_proper"
   ],
   "note": "for every history, constructions that raise included (Model/Leftover.lean); user functions of custom predicates are assumed not to raise NotImplementedError themselves"
  },
  {
   "property": "C48",
   "status": "proved",
   "theorems": [
    "Yargy.parsers_independent"
   ],
   "note": "the objects the parser works with stay as they are, and findall, match and extract give the same results, for every history, constructions that raise included; object addresses are taken to be unique while a transformator runs (C22)"
  },
  {
   "property": "C49",
   "status": "proved",
   "theorems": [
    "Yargy.parser_locality"
   ],
   "note": "both parsers are built or both are refused with the same exception; matches, trees, labels and facts correspond; for all histories, constructions that raise included, before, and distinct addresses while a transformator runs (C22)"
  },
  {
   "property": "C21",
   "status": "partial",
   "theorems": [
    "Yargy.rebuild_same_partial",
    "Yargy.rebuild_recursion",
    "Yargy.rebuild_loses_label",
    "Yargy.rebuild_keeps_tokenizer"
   ],
   "note": "False in general, with three witnesses: a recursive rule cannot be built twice (RecursionError at every recursion limit), labels inside forward rules are lost by the second construction, and predicates and gazetteers keep what the first tokenizer made of them. Proved for rules without forward rules and tokenizers that treat the words of the rule alike, for every history in between."
  },
  {
   "property": "C20",
   "status": "partial",
   "theorems": [
    "Yargy.labels_kept_partial",
    "Yargy.labels_kept",
    "Yargy.match_labels",
    "Yargy.extra_interpretation",
    "Yargy.names_both",
    "Yargy.empty_name_lost"
   ],
   "note": "Proved for names, interpretations and relations: derivations and matches carry exactly what was applied, where it was applied, for every rule graph, if the rule given to the parser carries such a label itself (labels_kept, match_labels); otherwise one of the labels may also be put around the whole match (labels_kept_partial), and this does happen (witness extra_interpretation). Restricted to repetitions that squashing does not change (C17) and to rules not compiled before with labels (C21). Names of the form R<number> are not counted, on either side: the parser gives such names itself."
  },
  {
   "property": "C19",
   "status": "partial",
   "theorems": [
    "Yargy.repetition_order_partial",
    "Yargy.repetition_count",
    "Yargy.optional_order",
    "Yargy.star_order_partial",
    "Yargy.greedy_not_always"
   ],
   "note": "False in general (witness greedy_not_always: choices within an earlier item weigh more than the number of items). Proved if the items before the last one of the shorter parse make the same choices, in particular for items that leave nothing to choose; optional parts without such a condition. Quantifiers on quantifiers: optional() and repeatable() on each other, two deep, read as what they stand for (settle). Not covered: other quantifiers applied directly to quantifiers, morph_pipeline."
  },
  {
   "property": "C50",
   "status": "proved",
   "theorems": [
    "Yargy.parse_choices",
    "Yargy.choices_parse",
    "Yargy.choices_unique",
    "Yargy.parse_order"
   ],
   "note": "for every history, constructions that raise included before (C47) and distinct addresses while a transformator runs (C22); gazetteer lines and predicates are taken as the tokenizer of the parser activates them"
  },
  {
   "property": "C51",
   "status": "partial",
   "theorems": [
    "Yargy.parser_builds_partial",
    "Yargy.fresh_parser_builds_partial",
    "Yargy.forward_to_repeatable_never_builds",
    "Yargy.forward_to_optional_repeatable_never_builds",
    "Yargy.forward_to_once_never_builds",
    "Yargy.undefined_never_builds",
    "Yargy.empty_line_never_builds",
    "Yargy.unknown_gram_never_builds",
    "Yargy.rep_optional_never_builds"
   ],
   "note": "False as stated: a forward rule defined by a repetition without bounds is refused with ValueError at every recursion limit (forward_to_repeatable_never_builds, also inside optional(), and forward rules inside repeatable(max=1)), and a recursive rule cannot be built twice (rebuild_recursion, C21). Proved: a parser is built if forward rules are defined by rules that are neither repetitions without bounds nor forward rules, also not inside of other quantifiers, nothing contains itself except through forward rules, predicates and morphology are known, gazetteer lines have words, and no quantifier stands around a RepeatableOptionalRule (which only the library makes). For programs that have not built a parser yet the second condition is always met (fresh_parser_builds_partial)."
  },
  {
   "property": "C52",
   "status": "proved",
   "theorems": [
    "Yargy.limit_only_recursion",
    "Yargy.never_builds"
   ],
   "note": "one level of recursion of the model stands for several Python frames; the limit bounds the depth of visit, of FlattenTransformator.visit_term and the length of the breadth-first walk"
  },
  {
   "property": "C53",
   "status": "proved",
   "theorems": [
    "Yargy.parse_outline",
    "Yargy.outline_parse",
    "Yargy.reported_outline",
    "Yargy.outline_main"
   ],
   "note": "for every history, constructions that raise included before (C47) and distinct addresses while a transformator runs (C22); that every derivation is found by the chart is C02 and C44, what becomes of empty parts before agreement is C27"
  },
  {
   "property": "C54",
   "status": "proved",
   "theorems": [
    "Yargy.match_fact"
   ],
   "note": "Which of several ways to read the tokens is taken is C50. The line of a gazetteer under normalized() is C40; that is why both together are excluded."
  },
  {
   "property": "C55",
   "status": "proved",
   "theorems": [
    "Yargy.Api.api_program",
    "Yargy.Api.api_words",
    "Yargy.Api.api_forward",
    "Yargy.Api.api_head",
    "Yargy.Api.api_optional",
    "Yargy.Api.api_repeatable",
    "Yargy.Api.api_or",
    "Yargy.Api.api_refuses",
    "Yargy.Api.api_relations",
    "Yargy.Api.api_normalizers"
   ],
   "note": "words, parts and choices of rules: for programs that have not built a parser yet; define is covered by api_refuses for such programs, all other calls for all"
  },
  {
   "property": "C56",
   "status": "partial",
   "theorems": [
    "Yargy.Api.define_drops",
    "Yargy.Api.define_returns_partial",
    "Yargy.Api.api_define"
   ],
   "note": "False: define on a rule with something put on it returns the bare forward rule (define_drops). Proved for forward rules themselves; in general the result is the forward rule inside (api_define)."
  },
  {
   "property": "C57",
   "status": "partial",
   "theorems": [
    "Yargy.gender_plural",
    "Yargy.gender_agrees_partial",
    "Yargy.common_gender_disagrees",
    "Yargy.number_agrees",
    "Yargy.case_fixed",
    "Yargy.case_agrees",
    "Yargy.gnc_agrees"
   ],
   "note": "False for two forms of common gender in the singular (common_gender_disagrees). Everything else is proved."
  },
  {
   "property": "C58",
   "status": "partial",
   "theorems": [
    "Yargy.parsers_independent",
    "Yargy.failure_touches",
    "Yargy.retry_raises",
    "Yargy.retry_same_partial",
    "Yargy.build_refused_iff",
    "Yargy.failure_keeps_tokenizer"
   ],
   "note": "False as stated: a construction that raised has activated rules with its tokenizer, and a later parser with another tokenizer gets these (failure_keeps_tokenizer). Proved: parsers built before stay as they are (parsers_independent, whose histories include constructions that raise); objects outside of the rule are unchanged, those of the rule unchanged, activated or, if forward rules, redefined (failure_touches); what cannot be activated raises the same exception again, whatever the rule (retry_raises); rules without forward rules give the same parser or the same exception with the same tokenizer (retry_same_partial). Missing: rules with forward rules after a construction that was stopped later than activation."
  },
  {
   "property": "C59",
   "status": "partial",
   "theorems": [
    "Yargy.grammar_printed",
    "Yargy.grammar_names",
    "Yargy.printed_generates_partial",
    "Yargy.plain_printed",
    "Yargy.line_read",
    "Yargy.printed_twice"
   ],
   "note": "False as stated: a name given by the user may be one that the parser makes for another rule, two rules may carry the same interpretation, and only the kind of a gazetteer is printed (witness printed_twice). Proved for all rules: printing succeeds, changes nothing, shows one line per rule with its productions, the starting rule first, and only names that the user gave are the names of two rules. The lines generate the words of the rule if no label is printed twice and there are no gazetteers (printed_generates_partial), in particular for rules without names, interpretations, relations and gazetteers (plain_printed). Texts of predicates, interpretations and relations are parameters that do not raise."
  },
  {
   "property": "C60",
   "status": "proved",
   "theorems": [
    "Yargy.fresh_terminates",
    "Yargy.program_terminates",
    "Yargy.tokens_consume",
    "Yargy.plain_consumes",
    "Yargy.solid_consumes",
    "Yargy.optionals_consume",
    "Yargy.hollow_never_ends"
   ],
   "note": "fresh_terminates: programs that have not built a parser yet; program_terminates: any program, for rules that contain only older objects except through forward rules (which holds unless forward rules were compiled before). hollow_never_ends: the condition cannot be dropped. rule.optional().repeatable() does not meet the condition, although the parser makes it harmless by squashing. Addresses are distinct while a transformator runs (C22)."
  },
  {
   "property": "C61",
   "status": "partial",
   "theorems": [
    "Yargy.fresh_correct_optionals_partial",
    "Yargy.fresh_correct_partial",
    "Yargy.text_correct_optionals_partial",
    "Yargy.program_findall_partial",
    "Yargy.program_match_partial",
    "Yargy.program_reports"
   ],
   "note": "Total correctness is proved for rules whose optional parts all stand directly after a predicate, a gazetteer or a rule that ends with a predicate (Spec/Optional.lean), without agreement relations and repetitions that squashing changes (C17), for programs that have not built a parser yet (fresh_correct_optionals_partial; without optional parts fresh_correct_partial). What findall and match return is proved for rules with empty parts whose compiled grammar has them where the parser finds them (a condition that can be computed). With optional parts at other places the claim is false in general (C07, C44), with relations too (C25, C27)."
  },
  {
   "property": "C62",
   "status": "proved",
   "theorems": [
    "Yargy.rule_picture",
    "Yargy.same_picture",
    "Yargy.picture_arrow"
   ],
   "note": "Objects that are drawn are alive, so their addresses are distinct. Labels of predicates, interpretators and relations are taken as given. How the dot program lays the graph out is not modelled."
  },
  {
   "property": "C63",
   "status": "proved",
   "theorems": [
    "Yargy.tree_picture",
    "Yargy.picture_arrow"
   ],
   "note": "The nodes of a normalized tree are all different objects, so their places serve as identities."
  },
  {
   "property": "C64",
   "status": "proved",
   "theorems": [
    "Yargy.facts_compare_by_value",
    "Yargy.facts_equality",
    "Yargy.equal_facts_same",
    "Yargy.match_fact_equals",
    "Yargy.call_order",
    "Yargy.call_refused",
    "Yargy.equal_facts_same_json",
    "Yargy.match_facts_framed",
    "Yargy.called_fact_has_no_json",
    "Yargy.nan_fact_differs"
   ],
   "note": "The equality of objects that yargy has not made is a parameter; it must be an equivalence for facts_equality (nan_fact_differs shows why). The JSON of equal facts is the same if what the grammar puts in contains no fact objects (C36) and both were found in a text: a fact made by calling the class has no JSON (called_fact_has_no_json)."
  },
  {
   "property": "C65",
   "status": "partial",
   "theorems": [
    "Yargy.equal_facts_equal_hashes",
    "Yargy.facts_hashable_partial",
    "Yargy.repeatable_fact_unhashable"
   ],
   "note": "False as stated: facts with a repeatable attribute hold a list and cannot be hashed (repeatable_fact_unhashable). Proved: a fact has a hash exactly if no list is in it and all objects in it have one; equal facts have equal hashes."
  },
  {
   "property": "C66",
   "status": "proved",
   "theorems": [
    "Yargy.gazetteer_match",
    "Yargy.gazetteer_own_lines",
    "Yargy.gazetteer_line_found",
    "Yargy.split_words"
   ],
   "note": "a gazetteer on its own, in programs that have not built a parser yet; gazetteer_line_found for the default tokenizer rules and the default tagger; distinct addresses (C22), injective hash of states"
  },
  {
   "property": "C67",
   "status": "proved",
   "theorems": [
    "Yargy.findall_pieces",
    "Yargy.extract_pieces",
    "Yargy.match_piece"
   ],
   "note": "for every history, constructions that raise included"
  },
  {
   "property": "C68",
   "status": "proved",
   "theorems": [
    "Yargy.tokens_split",
    "Yargy.default_tokens_split",
    "Yargy.reader_split"
   ],
   "note": "Line breaks are tokens themselves and are joined to runs, so they are not separators in this sense."
  },
  {
   "property": "C69",
   "status": "partial",
   "theorems": [
    "Yargy.surroundings_partial",
    "Yargy.exact_surroundings",
    "Yargy.surroundings_matter"
   ],
   "note": "False as stated: an optional part may be missed because of what is before (surroundings_matter). Proved for the rules of C61: no agreement relations, optional parts only directly after tokens, and in general for parsers that report exactly what their rule accepts (exact_surroundings)."
  },
  {
   "property": "C70",
   "status": "proved",
   "theorems": [
    "Yargy.phrase_found"
   ],
   "note": "programs that have not built a parser yet; predicates must not raise on the tokens of the text; distinct addresses (C22), injective hash of states"
  },
  {
   "property": "C71",
   "status": "partial",
   "theorems": [
    "Yargy.rules_compose_partial",
    "Yargy.accepts_composed",
    "Yargy.alternative_lost"
   ],
   "note": "False as stated: with optional parts or_ may find nothing where an alternative alone finds something (alternative_lost). Proved for rules without agreement relations whose optional parts stand directly after tokens (C61), in programs that have not built a parser yet; a part that is optional has no parser of its own that would answer (C39), so it is its content that is compared; gazetteers as parts are allowed, what they report is C66."
  },
  {
   "property": "C72",
   "status": "partial",
   "theorems": [
    "Yargy.exceptions_reach",
    "Yargy.results_same",
    "Yargy.quiet_same",
    "Yargy.text_correct_raising_partial",
    "Yargy.chart_raises",
    "Yargy.chart_must_raise_partial",
    "Yargy.exception_missed",
    "Yargy.cause"
   ],
   "note": "exceptions_reach, results_same and quiet_same are for every history and every rule. That a predicate of interest that raises is in fact asked is proved for predicates that are preceded in their production by predicates only; in general it is false, as the chart misses derivations with empty parts (exception_missed)."
  },
  {
   "property": "C73",
   "status": "proved",
   "theorems": [
    "Yargy.Compare.spans_compare",
    "Yargy.Compare.spans_order",
    "Yargy.Compare.tokens_compare",
    "Yargy.Compare.tokens_equality",
    "Yargy.Compare.equal_tokens_same_answers",
    "Yargy.Compare.equal_tokens_same_normal",
    "Yargy.Compare.matches_compare",
    "Yargy.Compare.findall_matches_differ",
    "Yargy.Compare.equal_tokens_inflected_otherwise",
    "Yargy.Compare.equal_matches_other_alternatives"
   ],
   "note": "findall_matches_differ is for the default tokenizer rules. The last two are the limits: equal tokens need not be inflected alike (the record of the analyzer is not compared), and equal matches of extract may come from different alternatives (trees are not compared)."
  },
  {
   "property": "C74",
   "status": "proved",
   "theorems": [
    "Yargy.Compare.places_unhashable",
    "Yargy.Compare.forms_hashable"
   ],
   "note": "The grammemes of pymorphy are taken to be a frozen set. The rule of Python that a class with __eq__ and without __hash__ has none is part of the model (RecordCls.hashable)."
  },
  {
   "property": "C75",
   "status": "proved",
   "theorems": [
    "Yargy.pair_found",
    "Yargy.pair_shared_false",
    "Yargy.pair_second_reordered"
   ],
   "note": "The two parts are made by calls of their own; with one object as both parts the claim is false (pair_shared_false). Predicates must not raise on the tokens of the text; distinct addresses (C22), injective hash of states. Functions of the user in relations must only look at grammemes (Respects), as C27."
  },
  {
   "property": "C76",
   "status": "proved",
   "theorems": [
    "Yargy.slots_found",
    "Yargy.slots_fact"
   ],
   "note": "Predicates must not raise on the tokens of the text; distinct addresses (C22), injective hash of states; fact classes have attributes with different names, and subclasses those of their base (SaneFacts)."
  },
  {
   "property": "C77",
   "status": "proved",
   "theorems": [
    "Yargy.forms_exact",
    "Yargy.fact_exact"
   ],
   "note": "Rules without relations (with them: C75 for pairs, C12 in general). Distinct addresses (C22); the facts for rules that are steady (C54) and whose root is an interpretation; attributes of the line of a pipeline are excluded when gazetteers are in the rule."
  },
  {
   "property": "C78",
   "status": "proved",
   "theorems": [
    "Yargy.facts_filled",
    "Yargy.filled_fact"
   ],
   "note": "filled_fact: every program, rules without relations and without repetitions that squashing changes (C17). facts_filled: rules of C61 in programs that have not built a parser yet. Which reading is taken if there are several is C50. normalized() and gazetteers in one rule are excluded (C40). Distinct addresses (C22), injective hash of states; SaneFacts."
  },
  {
   "property": "C79",
   "status": "proved",
   "theorems": [
    "Yargy.facts_nested",
    "Yargy.nested_fact"
   ],
   "note": "As C78: nested_fact is for every program and rules without relations and without repetitions that squashing changes (C17); facts_nested for rules of C61 in programs that have not built a parser yet. Distinct addresses (C22), injective hash of states; SaneFacts."
  },
  {
   "property": "C80",
   "status": "proved",
   "theorems": [
    "Yargy.related_fact"
   ],
   "note": "Every program; rules without repetitions that squashing changes (C17); normalized() and gazetteers in one rule are excluded (C40). What is found with relations is C24, C45, C75; which forms are left is C25 and C26 (false in general). Distinct addresses (C22); SaneFacts."
  },
  {
   "property": "C81",
   "status": "proved",
   "theorems": [
    "Yargy.nested_fact",
    "Yargy.facts_nested",
    "Yargy.related_fact"
   ],
   "note": "The spans are the last part of NestedFact and NarrowedFact (Spec/Nested.lean). As C79 and C80: not repetitions that squashing changes (C17). Distinct addresses (C22); SaneFacts."
  }
 ]
}