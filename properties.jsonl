{"id": "C01", "title": "findall never returns overlapping matches", "statement": "For every grammar and text, the matches yielded by Parser.findall are pairwise non-overlapping in token positions and come in text order: each match ends no later than the next one starts. Every returned match is one of the candidates that passed the agreement checks.", "quantifier": "every list of candidate spans a parse can produce (any number, any overlaps), hence every text and grammar", "why_tests_cant": "overlap patterns are unbounded; the dynamic program in resolve_spans is only wrong on particular configurations of nested, chained and equal-coverage spans", "anchors": ["yargy/span.py:resolve_spans", "yargy/span.py:get_nexts", "yargy/parser.py:prepare_resolved_matches", "yargy/parser.py:Parser.findall"]}
{"id": "C02", "title": "findall maximises the covered tokens", "statement": "Among all ways of choosing pairwise non-overlapping candidates, the set returned by findall has the greatest total number of covered tokens.", "quantifier": "every candidate list and every alternative selection of it", "why_tests_cant": "optimality is a statement against all alternative selections, exponentially many", "anchors": ["yargy/span.py:resolve_spans", "yargy/span.py:span_size"]}
{"id": "C03", "title": "findall tie-breaking is leftmost-first", "statement": "When several selections reach the maximal coverage, findall returns the one that is first in candidate order (leftmost, then longest): the returned selection is lexicographically least among the optimal ones. In particular the result is a function of the candidate list only.", "quantifier": "every candidate list and every other optimal selection", "why_tests_cant": "needs comparison with all optimal selections", "anchors": ["yargy/span.py:resolve_spans", "yargy/tree/constructors.py:Tree.__lt__"]}
{"id": "C04", "title": "findall drops no match without a reason", "statement": "Every candidate span that findall does not return overlaps a span that it does return; when the candidates are already pairwise disjoint all of them are returned.", "quantifier": "every candidate list", "why_tests_cant": "universal over all candidates and configurations", "anchors": ["yargy/span.py:resolve_spans"]}
{"id": "C05", "title": "Every reported parse is a derivation of the grammar (soundness)", "statement": "Every match yielded by extract/findall/match carries a tree that is a derivation of the start rule: each node's children spell one production of its rule in order, every leaf's predicate accepted its token, and the leaves are exactly the consecutive tokens of the reported range.", "quantifier": "every grammar (recursive, ambiguous, nullable), every token sequence, every state the chart ever holds", "why_tests_cant": "chart parsing interleaves prediction, scanning and completion; tests sample a few grammars", "anchors": ["yargy/parser.py:Parser.chart", "yargy/parser.py:Parser.predict", "yargy/parser.py:Parser.scan", "yargy/parser.py:Parser.complete", "yargy/parser.py:Column.append"]}
{"id": "C06", "title": "Match tokens and span describe one contiguous piece of the text", "statement": "match.tokens is a contiguous slice of the tokenizer's (tagged) output, at least one token long, and match.span is [start of its first token, stop of its last token).", "quantifier": "every match of every grammar and text", "why_tests_cant": "depends on all chart executions and on the removal of empty nodes", "anchors": ["yargy/parser.py:Match", "yargy/token.py:get_tokens_span", "yargy/tree/transformators.py:PropogateEmptyTransformator"]}
{"id": "C07", "title": "Every parse of the text is found (completeness)", "statement": "If a part of the text has a derivation from the start rule, extract reports it (when its agreement checks pass).", "quantifier": "every grammar, token sequence and derivation", "why_tests_cant": "a universally quantified existence claim; the failing cases need four or more repetitions or shared optional rules", "anchors": ["yargy/parser.py:Parser.chart", "yargy/parser.py:Parser.complete", "yargy/parser.py:State.parents", "yargy/parser.py:Column.update_index"]}
{"id": "C08", "title": "No parse is reported twice", "statement": "extract never reports the same derivation of the same range twice: different reported trees differ in the choice of some production or in some split point.", "quantifier": "every grammar, token sequence and pair of reported trees", "why_tests_cant": "requires reasoning about object identity and duplicate suppression over whole executions", "anchors": ["yargy/parser.py:State.__hash__", "yargy/parser.py:Column.append"]}
{"id": "C09", "title": "Parsing terminates", "statement": "extract/findall/match terminate on every text for every grammar in which no rule can derive itself over the same tokens; for a grammar with such a cycle reachable on the text they do not terminate.", "quantifier": "every grammar and token sequence", "why_tests_cant": "termination and non-termination are not observable by finite testing", "anchors": ["yargy/parser.py:Parser.chart", "yargy/parser.py:State.__hash__"]}
{"id": "C10", "title": "match() covers the whole text", "statement": "If Parser.match(text) returns a match, its tokens are all the tokens of the text.", "quantifier": "every grammar and text", "why_tests_cant": "fails only when the start rule is recursive and a proper suffix parses while the whole text does not", "anchors": ["yargy/parser.py:Parser.match", "yargy/parser.py:Parser.matches", "yargy/parser.py:Column.matches"]}
{"id": "C11", "title": "match() and findall() succeed whenever a parse exists", "statement": "match returns a match if and only if some reported derivation of the required range passes its agreement checks; findall returns something if and only if some reported derivation does; find returns the leftmost match of findall, and None only if there is none.", "quantifier": "every grammar and text", "why_tests_cant": "iff over all derivations", "anchors": ["yargy/parser.py:Parser.match", "yargy/parser.py:Parser.findall", "yargy/parser.py:prepare_matches"]}
{"id": "C12", "title": "Ambiguity is resolved by a total order that follows the grammar", "statement": "Parses of the same text range are totally ordered: at the leftmost place where two parses differ, the one that uses the alternative listed earlier in the rule is preferred; earlier start and then longer range come first. The order is irreflexive, transitive and total on the reported parses, comparing never raises, so the sorted sequence does not depend on the sorting algorithm or on the order in which the chart produced the trees.", "quantifier": "every grammar, text and every pair and triple of reported parses", "why_tests_cant": "consistency of a comparison method over all pairs and triples", "anchors": ["yargy/tree/constructors.py:Node.__lt__", "yargy/tree/constructors.py:Tree.__lt__", "yargy/parser.py:Parser.findall"]}
{"id": "C13", "title": "findall and match use the best-ranked acceptable parse", "statement": "For each text range reported by findall the match is built from the least parse (in the order of C12) of that range whose agreement checks pass; match returns the least acceptable parse overall.", "quantifier": "every grammar, text and range", "why_tests_cant": "compares the chosen parse with all others of the range", "anchors": ["yargy/parser.py:prepare_resolved_matches", "yargy/parser.py:Parser.match"]}
{"id": "C14", "title": "Gazetteer lookup loses nothing", "statement": "For pipeline, caseless_pipeline and morph_pipeline the index lookup by the next token selects exactly the dictionary lines whose first word accepts that token, so indexing never changes which dictionary entries match.", "quantifier": "every list of lines and every token (plain or with any number of morphological forms)", "why_tests_cant": "equality of two sets for all dictionaries and tokens", "anchors": ["yargy/pipelines.py:PipelineBNFRule.predict", "yargy/pipelines.py:CaselessPipelineBNFRule.predict", "yargy/pipelines.py:MorphPipelineBNFRule.predict", "yargy/pipelines.py:PipelineBNFRule.build_index", "yargy/pipelines.py:MorphPipelineBNFRule.build_index"]}
{"id": "C15", "title": "Gazetteer entries match exactly their own words", "statement": "A pipeline rule matches a token sequence iff for some line the words of the sequence equal, one by one, the tokens of that line (exactly; up to case; or up to a shared normal form for morph_pipeline). A line that tokenizes to nothing is rejected when the parser is built.", "quantifier": "every dictionary and token sequence", "why_tests_cant": "all dictionaries and sequences", "anchors": ["yargy/pipelines.py:Pipeline.productions", "yargy/pipelines.py:PipelineScheme.activate", "yargy/pipelines.py:MorphPipelineScheme.get_key"]}
{"id": "C16", "title": "Rule normalisation preserves the language", "statement": "Replacing optional/repeatable/bounded rules, or_ and empty by plain productions, and flattening one-term rules, changes neither the set of token sequences a rule accepts nor those accepted by the forward rules it refers to.", "quantifier": "every rule expression, including recursive ones through forward()", "why_tests_cant": "language equality over all rules and all token sequences", "anchors": ["yargy/rule/transformators.py:ReplaceExtendedTransformator", "yargy/rule/transformators.py:ReplaceOrTransformator", "yargy/rule/transformators.py:ReplaceEmptyTransformator", "yargy/rule/transformators.py:FlattenTransformator"]}
{"id": "C17", "title": "Squashing nested quantifiers preserves the language", "statement": "Collapsing nested optional/repeatable/bounded wrappers (the first normalisation pass) does not change the accepted token sequences.", "quantifier": "every nesting of quantifiers with every bound", "why_tests_cant": "fails only for particular nestings with a lower bound of two or more; must hold for all nestings", "anchors": ["yargy/rule/transformators.py:SquashExtendedTransformator"]}
{"id": "C18", "title": "repeatable(min, max) accepts exactly min..max repetitions", "statement": "rule.repeatable(min=a, max=b) accepts exactly the concatenations of k copies, a <= k <= b (k >= a without max, 1 <= k <= b without min, k >= 1 without both); contradictory or non-positive bounds are rejected with ValueError; reverse does not change what is accepted.", "quantifier": "all bounds, all token sequences, both values of reverse", "why_tests_cant": "unbounded counts", "anchors": ["yargy/rule/constructors.py:Rule.repeatable", "yargy/rule/constructors.py:MinMaxBoundedRule", "yargy/rule/transformators.py:max_bound", "yargy/rule/transformators.py:repeatable", "yargy/rule/transformators.py:repeat"]}
{"id": "C19", "title": "Repetition is greedy by default and lazy with reverse=True", "statement": "Among parses of the same range that start with a repeated item, the default prefers taking more repetitions first, reverse=True prefers fewer; optional() prefers skipping unless reversed.", "quantifier": "every item rule and every pair of parses", "why_tests_cant": "comparison over all pairs of parses", "anchors": ["yargy/rule/transformators.py:repeatable", "yargy/rule/transformators.py:optional", "yargy/tree/constructors.py:Node.__lt__"]}
{"id": "C20", "title": "Wrapping a shared rule never clobbers the other use", "statement": "Using one rule object under several names, interpretations or agreement relations in a grammar gives each use its own name/interpretation/relation: compiling never makes one use overwrite another, and every derivation passes through nodes carrying exactly the wrappers that were applied.", "quantifier": "every rule graph with arbitrary sharing", "why_tests_cant": "sharing patterns are unbounded; the compiler mutates compiled rules in place", "anchors": ["yargy/rule/bnf.py:BNFTransformator", "yargy/rule/bnf.py:lift", "yargy/rule/bnf.py:BNFTransformator.is_shared"]}
{"id": "C21", "title": "Building a parser does not disturb the rule", "statement": "A rule can be used to build any number of parsers, with any tokenizers; the parser built later behaves as if it were the only one.", "quantifier": "every rule graph and every history of parser constructions", "why_tests_cant": "history dependence: needs all sequences of constructions; construction mutates forward rules, productions and pipelines in place", "anchors": ["yargy/parser.py:Parser.__init__", "yargy/rule/transformators.py:ActivateTransformator", "yargy/rule/transformators.py:RuleTransformator.__call__", "yargy/rule/bnf.py:RemoveForwardTransformator"]}
{"id": "C22", "title": "The compiled grammar does not depend on memory addresses", "statement": "Normalising a rule gives the same grammar whatever addresses the interpreter hands out for temporary objects.", "quantifier": "every rule and every allocation history (which freed address is reused when)", "why_tests_cant": "address reuse is up to the allocator; tests see one allocation history", "anchors": ["yargy/rule/transformators.py:RuleTransformator.visit", "yargy/rule/transformators.py:SquashExtendedTransformator"]}
{"id": "C23", "title": "Agreement relations are symmetric", "statement": "gender, number, case and gnc relations, and every and_/or_/not_ combination of symmetric relations, give the same answer in both directions.", "quantifier": "all pairs of forms (all sets of grammemes) and all combinations of relations", "why_tests_cant": "2^N grammeme sets and unbounded nesting of combinators", "anchors": ["yargy/relations/bank.py", "yargy/relations/constructors.py:RelationsComposition", "yargy/relations/constructors.py:NotRelation"]}
{"id": "C24", "title": "Agreement never rejects or prunes a consistent reading", "statement": "If one can choose a form for every related word so that all agreement relations hold pairwise, the parse is accepted and every form of that choice is kept among the word's remaining forms. Only forms the word had before are kept.", "quantifier": "any number of related words, forms and relations; any order of checking", "why_tests_cant": "all constraint graphs", "anchors": ["yargy/relations/graph.py:TokenRelationsGraph.validate", "yargy/relations/graph.py:RelationsGraph.edges"]}
{"id": "C25", "title": "Agreement keeps only agreeing forms", "statement": "After a successful check every remaining form of a word has an agreeing partner among the remaining forms of every word it is related to.", "quantifier": "any number of related words, forms and relations", "why_tests_cant": "holds for two words, fails for three related words only for particular form sets", "anchors": ["yargy/relations/graph.py:TokenRelationsGraph.validate"]}
{"id": "C26", "title": "Matches do not influence each other", "statement": "Whether a parse is accepted and which forms its tokens keep depend only on that parse, not on the other candidate parses examined before or after it.", "quantifier": "every set of candidate parses and every order of examination", "why_tests_cant": "the leaves are shared between candidate trees and mutated in place; needs all sequences of candidates", "anchors": ["yargy/tree/transformators.py:ApplyRelationsTransformator.visit_Leaf", "yargy/parser.py:prepare_match", "yargy/parser.py:prepare_resolved_matches"]}
{"id": "C27", "title": "main() designates the head word", "statement": "For agreement, the head of a phrase is the head of the term marked main() (of the first term by default), whichever optional parts of the phrase are present.", "quantifier": "every production, choice of main term and every parse of it", "why_tests_cant": "fails only when an optional term before the marked one is absent", "anchors": ["yargy/tree/constructors.py:Node.main", "yargy/rule/constructors.py:prepare_terms", "yargy/tree/transformators.py:PropogateEmptyTransformator"]}
{"id": "C28", "title": "Agreement changes nothing but the forms of words", "statement": "Narrowing a token's forms (gram predicates, agreement) keeps its text, span, type and tag; the remaining forms are a non-empty subset of the original ones.", "quantifier": "every token class and every narrowing", "why_tests_cant": "all tokens, predicates and relation graphs", "anchors": ["yargy/token.py:MorphToken.constrained", "yargy/token.py:MorphTagToken.constrained", "yargy/predicates/bank.py:GramPredicate.constrain", "yargy/relations/graph.py:TokenRelationsGraph.constrain"]}
{"id": "C29", "title": "Tokenization covers the text exactly", "statement": "For every text the default tokenizer's tokens are non-empty, in order, non-overlapping, each token's value is the text at its span, and the only characters outside all tokens are white space other than line breaks.", "quantifier": "every text (any Unicode string)", "why_tests_cant": "all strings", "anchors": ["yargy/tokenizer.py:Tokenizer.__call__", "yargy/tokenizer.py:RULES"]}
{"id": "C30", "title": "Tokenizer rules are applied by priority; adding and removing rules is exact", "statement": "At every position the first rule in order that matches there determines the token; rules added with add_rules take precedence over all earlier ones; after remove_types no token has a removed type and the other rules keep their order; removing an unknown type raises ValueError and leaves the tokenizer unchanged; other tokenizers are unaffected.", "quantifier": "every rule list, text and history of add/remove calls", "why_tests_cant": "all histories and texts", "anchors": ["yargy/tokenizer.py:Tokenizer.reset", "yargy/tokenizer.py:Tokenizer.add_rules", "yargy/tokenizer.py:Tokenizer.remove_types", "yargy/tokenizer.py:Tokenizer.compile"]}
{"id": "C31", "title": "Morphological tokenization only adds forms", "statement": "MorphTokenizer yields the same values, spans and types as Tokenizer; exactly the RU tokens carry forms, and they are the analyzer's answer for the token's text.", "quantifier": "every text and analyzer", "why_tests_cant": "all texts", "anchors": ["yargy/tokenizer.py:MorphTokenizer.__call__", "yargy/token.py:Token.morphed"]}
{"id": "C32", "title": "Joining tokens normalises white space only", "statement": "Joining consecutive tokens gives their texts in order with exactly one space wherever the text had a gap and nothing elsewhere.", "quantifier": "every token sequence", "why_tests_cant": "all sequences and gaps", "anchors": ["yargy/token.py:join_tokens", "yargy/token.py:format_tokens"]}
{"id": "C33", "title": "Predicates form a Boolean algebra over tokens", "statement": "and_/or_/not_ of predicates accept a token exactly when the Boolean combination of their parts does, for any nesting, and activation commutes with the combination; gte/lte are false on non-INT tokens and gram/is_single are false on tokens without forms; a token accepted by gram(g) keeps at least one form and only forms with g.", "quantifier": "every predicate expression and token", "why_tests_cant": "unbounded nesting", "anchors": ["yargy/predicates/constructors.py", "yargy/predicates/bank.py", "yargy/api.py:and_"]}
{"id": "C34", "title": "Unknown grammemes, token types and tags are rejected before parsing", "statement": "Building a parser from a rule that mentions, anywhere, an unknown grammeme, token type or tag raises an error; otherwise every scheme in the rule is replaced by a runnable predicate.", "quantifier": "every rule and every nesting of predicates", "why_tests_cant": "position and nesting are unbounded", "anchors": ["yargy/predicates/bank.py:gram", "yargy/predicates/bank.py:type", "yargy/predicates/bank.py:tag", "yargy/predicates/bank.py:custom", "yargy/tagger.py:Tagger.check_tag", "yargy/tokenizer.py:Tokenizer.check_type"]}
{"id": "C35", "title": "Facts are filled by last-assignment / accumulation", "statement": "The fact built for a node holds, for an ordinary attribute, the last value assigned among its parts in text order (its default if none), and for a repeatable attribute all assigned values in text order; parts of the same fact type are merged, values of unrelated facts are ignored.", "quantifier": "every fact type and every sequence of parts", "why_tests_cant": "all sequences", "anchors": ["yargy/interpretation/interpretator.py:FactInterpretator.__call__", "yargy/interpretation/fact.py:InterpretatorFact.set", "yargy/interpretation/fact.py:InterpretatorFact.merge"]}
{"id": "C36", "title": "as_json and the fact object agree", "statement": "fact.as_json lists exactly the attributes whose value is not None, in declaration order, with the same (recursively converted) values as the fact object.", "quantifier": "every fact, arbitrarily nested", "why_tests_cant": "unbounded nesting", "anchors": ["yargy/interpretation/fact.py:InterpretatorFact.as_json", "yargy/interpretation/fact.py:InterpretatorFact.normalized"]}
{"id": "C37", "title": "Interpretation sees every token exactly once", "statement": "The tokens passed to the interpreters of a tree are the tokens of the match, each exactly once, in order, delivered to the nearest enclosing interpretation; rules without interpretation are transparent.", "quantifier": "every tree", "why_tests_cant": "all trees", "anchors": ["yargy/tree/transformators.py:KeepInterpretationNodesTransformator", "yargy/tree/transformators.py:InterpretationTransformator"]}
{"id": "C38", "title": "Spans of a fact lie inside the match", "statement": "fact.spans is sorted by start and every span lies inside match.span and starts and ends on token boundaries of the match.", "quantifier": "every fact-producing grammar and text", "why_tests_cant": "all trees and interpretations", "anchors": ["yargy/interpretation/fact.py:Fact.spans", "yargy/interpretation/interpretator.py:NormalizerResult.spans", "yargy/interpretation/interpretator.py:Chain.spans"]}
{"id": "C39", "title": "A grammar whose start rule accepts the empty text", "statement": "findall/extract on any text with a rule that can match nothing report only non-empty matches.", "quantifier": "every nullable start rule and text", "why_tests_cant": "all texts", "anchors": ["yargy/parser.py:prepare_match", "yargy/tree/transformators.py:PropogateEmptyTransformator", "yargy/visitor.py:Visitor.resolve_method"]}
{"id": "C40", "title": "normalized() of a gazetteer match is its dictionary line", "statement": "For a gazetteer rule interpreted with normalized(), the fact value is the dictionary line whose words matched (not the words in the text); for other rules it is the normal forms of the tokens joined as in the text.", "quantifier": "every dictionary, text and chain of tokens", "why_tests_cant": "all dictionaries", "anchors": ["yargy/interpretation/normalizer.py:NormalizedNormalizer.__call__", "yargy/tree/transformators.py:InterpretationTransformator.visit_Node", "yargy/pipelines.py:PipelineProduction"]}
{"id": "C41", "title": "The morphology cache is transparent and bounded", "statement": "For every history of lookups the cached analyzer answers what the uncached analyzer answers, and holds at most CACHE_SIZE entries.", "quantifier": "every call history", "why_tests_cant": "histories longer than the capacity with arbitrary repetition patterns", "anchors": ["yargy/morph.py:CachedMorphAnalyzer"]}
{"id": "C42", "title": "Graph output is well quoted", "statement": "In DOT output every label is one well-formed quoted string whatever the token or rule text, and every graph node gets its own number.", "quantifier": "every label text and every graph", "why_tests_cant": "all strings", "anchors": ["yargy/dot.py:style.quote", "yargy/dot.py:Graph.id", "yargy/dot.py:Graph.source"]}
{"id": "C43", "title": "Taggers compose left to right and never change tokens' text", "statement": "A composition of taggers is the left-to-right composition of its parts; the tags it knows are the union of its parts' tags; the default tagger is the identity; tagging keeps text, span, type and forms.", "quantifier": "every list of taggers and every token sequence", "why_tests_cant": "all compositions", "anchors": ["yargy/tagger.py:TaggersComposition", "yargy/tagger.py:PassTagger", "yargy/token.py:Token.tagged"]}
{"id": "C44", "title": "A parser built from a rule recognises the rule's language", "statement": "End to end: the reported ranges of Parser(rule).extract (all=True) are exactly the ranges of tokens that the rule expression, read as an ordinary regular/context-free expression, accepts.", "quantifier": "every rule expression and every text", "why_tests_cant": "composition of all passes over all rules", "anchors": ["yargy/parser.py:Parser.__init__", "yargy/rule/constructors.py:Rule.normalized", "yargy/rule/constructors.py:Rule.as_bnf"]}
{"id": "C45", "title": "A phrase is accepted exactly when its words have a consistent reading", "statement": "A parse passes the agreement check if and only if one can choose one form for every related word so that every agreement relation of the parse holds between every two words it relates.", "quantifier": "every set of relations, every phrase and every assignment of forms to its words", "why_tests_cant": "needs all form sets and all relation graphs; the single pass over the edges is only locally consistent", "anchors": ["yargy/relations/graph.py:TokenRelationsGraph.validate", "yargy/parser.py:prepare_match"]}
{"id": "C46", "title": "The result is the same in every run", "statement": "Parsing the same text with the same parser reports the same matches, with the same trees and in the same order, whatever the interpreter's hash seed and object addresses are (hash values of states, and therefore the iteration order of sets, vary between runs).", "quantifier": "every grammar, every text, every two collision-free hash functions and every two set iteration orders", "why_tests_cant": "a test runs under one hash seed; the claim ranges over all of them", "anchors": ["yargy/parser.py:State.__hash__", "yargy/parser.py:Column.append", "yargy/pipelines.py:MorphPipeline", "yargy/rule/bnf.py:BNFRule.predict"]}
{"id": "C47", "title": "A parser that was built can be used", "statement": "However a program made its rules, defined and redefined forward rules and built other parsers before: if compiling a rule succeeds, the result consists of compiled rules and productions only, the productions refer to compiled rules and to predicates that can be asked about any token. No forward rule, no unprocessed wrapper or repetition and no predicate scheme is left for the chart parser to stumble over.", "quantifier": "every history of making rules, defining forward rules and building parsers; every rule; every tokenizer", "why_tests_cant": "histories and rule graphs are unbounded; compiling mutates rules in place, so each construction starts from what the earlier ones left", "anchors": ["yargy/parser.py:Parser.__init__", "yargy/rule/transformators.py:ActivateTransformator", "yargy/rule/bnf.py:BNFTransformator", "yargy/rule/bnf.py:RemoveForwardTransformator"]}
{"id": "C48", "title": "Nothing done later changes a parser", "statement": "A parser that was built gives the same answers to findall, match and extract whatever the program does afterwards: making rules, defining or redefining forward rules the parser was built from, building parsers of the same or overlapping rules with other tokenizers.", "quantifier": "every history before and after the construction, every text", "why_tests_cant": "needs all later histories; rules, productions, forward rules and pipelines are shared and mutated by later constructions", "anchors": ["yargy/parser.py:Parser.__init__", "yargy/rule/constructors.py:ForwardRule.define", "yargy/rule/transformators.py:ActivateTransformator", "yargy/rule/bnf.py:RemoveForwardTransformator"]}
{"id": "C49", "title": "What a parser does depends on its rule only", "statement": "What a parser finds, and whether it can be built at all, depends only on the objects its rule consists of and on the arguments of Parser: two programs that made the same rule (object by object, with the same sharing) get parsers with the same matches, spans, trees, labels and facts, or the same exception, whatever other rules and parsers they made before and in whatever order, and wherever the objects are in memory.", "quantifier": "every two programs, every rule graph, every text, every hash function", "why_tests_cant": "ranges over all pairs of programs and memory layouts; the compiler keeps dictionaries keyed by addresses and mutates shared objects", "anchors": ["yargy/parser.py:Parser.__init__", "yargy/rule/transformators.py:RuleTransformator.__call__", "yargy/rule/bnf.py:BNFTransformator.__call__", "yargy/rule/constructors.py:bfs_rule"]}
{"id": "C50", "title": "Parses are preferred by the choices the rule leaves open, in the order written", "statement": "Of the ways to parse one piece of the text, parsers prefer the one whose choices come first in the rule as the user wrote it: alternatives of or_ and rule() in the order given, gazetteer lines in the order given, for repetitions and optional parts the order their reverse argument asks for. The choices are compared from left to right, where the first difference decides. Different parses differ in some choice, every combination of choices that fits the text is represented by a parse (up to alternatives that offer the same thing twice), and no parse shows choices the rule does not offer.", "quantifier": "every program, every rule graph (recursive, shared) without morph_pipeline in which quantifiers are applied directly to quantifiers at most two deep and only as optional() or repeatable() on optional() or repeatable() (read as both, or as the outer one of two alike), and which contains no gazetteer already compiled for another parser, every text, every pair of parses", "why_tests_cant": "compares all pairs of parses for all rule graphs; five compiler passes renumber, merge and replace alternatives in between", "anchors": ["yargy/tree/constructors.py:Node.__lt__", "yargy/rule/transformators.py:ReplaceExtendedTransformator", "yargy/rule/bnf.py:BNFTransformator", "yargy/parser.py:Parser.extract"]}
{"id": "C51", "title": "Parser(rule) does not raise for rules that are in order", "statement": "For every rule made with the constructors of the library in which every forward rule is defined, every predicate refers to grammemes and token types that are known, and every gazetteer line has a word, Parser(rule) succeeds once the recursion limit is high enough, whatever the program did before.", "quantifier": "every program, every rule graph (recursive through forward rules, shared), every tokenizer", "why_tests_cant": "the compiler is a chain of seven transformations with memoised recursion over cyclic graphs; termination and absence of every internal exception must be shown for all graphs", "anchors": ["yargy/parser.py:Parser.__init__", "yargy/rule/transformators.py:RuleTransformator", "yargy/rule/bnf.py:BNFTransformator", "yargy/pipelines.py:Pipeline"]}
{"id": "C52", "title": "The recursion limit decides nothing but RecursionError", "statement": "If Parser(rule) works with some recursion limit, it makes the same parser and leaves the same rule objects with every higher one; if it raises anything but RecursionError, it raises the same with every higher one.", "quantifier": "every rule graph, every pair of recursion limits", "why_tests_cant": "all pairs of limits for all rule graphs; memo tables filled on the way could make results depend on where the recursion was cut", "anchors": ["yargy/rule/transformators.py:RuleTransformator.visit", "yargy/rule/transformators.py:FlattenTransformator.visit_term", "yargy/rule/transformators.py:RuleTransformator.__call__"]}
{"id": "C53", "title": "The tree of a parse has the structure of the rule", "statement": "Apart from nodes with a single child, the tree of every parse mirrors the rule as written: the terms of rule(...) become the children of one node in the order given, with the term marked main() (the first by default) as main child; a repetition becomes its first item and the rest of it, nested to the right, the required items before that; what is left out becomes an empty node; a gazetteer match becomes a node that carries the dictionary line over the words of that line; alternatives, names, interpretations, relations and forward rules add nothing. Conversely every such structure that fits the text is the tree of a derivation. Following the main children leads to the head word of agreement.", "quantifier": "every program, every rule graph (recursive, shared) without morph_pipeline in which quantifiers are applied directly to quantifiers at most two deep and only as optional() or repeatable() on optional() or repeatable() (read as both, or as the outer one of two alike), and which contains no gazetteer already compiled for another parser, every text and parse", "why_tests_cant": "all rule graphs, texts and parses; flattening, replacement of quantifiers and conversion to BNF rebuild all productions in between", "anchors": ["yargy/rule/constructors.py:Production", "yargy/rule/transformators.py:FlattenTransformator", "yargy/rule/transformators.py:ReplaceExtendedTransformator", "yargy/rule/bnf.py:BNFTransformator", "yargy/tree/constructors.py:Node.main"]}
{"id": "C54", "title": "The fact of a match is what the rule as written says", "statement": "For a rule on which an interpretation was put last, match.fact, its as_json and its spans are determined by the rule as written: take a way to read the tokens of the match by the rule, call every interpretation(...) that was put on a part with the tokens and results of that part, innermost first and in text order, leaving out parts that are empty; the outermost result is the fact, and if one of these calls raises, match.fact raises the same. How rules are shared, named, forward-declared or nested, and what compiling makes of them, does not matter.", "quantifier": "every program, every rule graph (recursive, shared) in which no quantifier is put directly on a quantifier that squashing changes, without gazetteers or without normalized() in its interpretations, all fact classes and user functions, every text and match", "why_tests_cant": "all rule graphs, texts and matches; interpretations are moved to other rules, lifted and pruned on the way from the rule to the tree", "anchors": ["yargy/rule/constructors.py:InterpretationRule", "yargy/rule/bnf.py:BNFTransformator.visit_InterpretationRule", "yargy/tree/transformators.py:InterpretationTransformator", "yargy/interpretation/interpretator.py", "yargy/parser.py:Match.fact"]}
{"id": "C55", "title": "The functions and methods of the API build the rules they say, or raise", "statement": "rule(*items) says its items one after another (a string stands for the token equal to it, a predicate for a token it accepts), with the item marked by main() as main one; or_(*rules) says one of its rules, the earlier ones first; x.optional(reverse) says x or nothing; x.repeatable(min, max, reverse) says x as often as the bounds allow (None, 0 and False are no bounds), longer or shorter first; named, interpretation and match put just that label around x; a predicate may take the place of the rule x; a gazetteer says its lines; forward() says what it was defined as last, and nothing before that. and_, or_ and not_ of relations and custom() after another normalizer compose. No later call changes a rule except define on its forward rules. Calls raise in exactly the cases listed (two main items, mixed arguments of and_/or_, bounds below 1 or out of order, facts on predicates, forward defined by forward, …) and then leave everything as it was.", "quantifier": "every program of API calls, including calls that raise and are caught, every argument; for words and define: as long as no parser was built", "why_tests_cant": "all programs and arguments; tests call single functions on samples and never look at what later calls do to earlier rules", "anchors": ["yargy/api.py", "yargy/rule/constructors.py:Rule", "yargy/rule/constructors.py:ForwardRule", "yargy/predicates/constructors.py:Predicate", "yargy/relations/constructors.py:Main", "yargy/interpretation/interpretator.py:prepare_rule_interpretator", "yargy/interpretation/attribute.py", "yargy/interpretation/normalizer.py", "yargy/pipelines.py"]}
{"id": "C56", "title": "define returns the rule it is called on", "statement": "The value of x.define(...) is x, so that a rule can be written as one chain of calls, as in R = forward().interpretation(F).define(...).", "quantifier": "every program and forward rule, with anything put on it before define", "why_tests_cant": "all chains of wrappers; tests use define as a statement", "anchors": ["yargy/rule/constructors.py:WrapperRule.define", "yargy/rule/constructors.py:ForwardRule.define"]}
{"id": "C57", "title": "Agreement in gender, number and case is what grammar says", "statement": "gender_relation accepts two forms if there is a gender both can stand for (common gender stands for masculine and feminine, an open one for any; in the plural gender does not matter), number_relation if their number is the same, case_relation if their case is the same or one of them is not inflected; gnc_relation if all three do. In particular a form agrees with itself.", "quantifier": "all forms with definite features, whatever their other grammemes", "why_tests_cant": "all combinations of grammemes; tests use a few words", "anchors": ["yargy/relations/bank.py", "yargy/morph.py:Gender", "yargy/morph.py:Number", "yargy/morph.py:Case"]}
{"id": "C58", "title": "A parser that could not be built does no harm", "statement": "If Parser(rule) raises and the program catches the exception, it can go on: parsers built before work as before, rules that do not share anything with that rule are as they were, the same attempt raises the same exception again, and every other rule gives the parser it would have given without the attempt.", "quantifier": "every program that makes rules, defines forward rules and builds parsers with or without success, every rule, tokenizer and recursion limit", "why_tests_cant": "all rules and all points at which construction may stop; tests check at most that the exception is raised", "anchors": ["yargy/parser.py:Parser.__init__", "yargy/rule/transformators.py:InplaceRuleTransformator", "yargy/rule/transformators.py:ActivateTransformator", "yargy/rule/bnf.py:RemoveForwardTransformator"]}
{"id": "C59", "title": "The printed grammar is the grammar", "statement": "Printing the grammar of a parser (parser.rule.as_bnf.source) never raises and changes nothing. It shows one line for every rule of the compiled grammar, the starting rule first. Rules without a name get different names. Read as a grammar, the lines generate exactly the sequences of predicates the original rule allows.", "quantifier": "every program that makes rules and builds parsers, every rule, every way predicates, interpretations and relations are printed", "why_tests_cant": "all rule graphs and all histories; the documentation shows the printed form of a few grammars, and whether two rules end up with one name depends on the whole rule", "anchors": ["yargy/rule/bnf.py:BNF", "yargy/rule/bnf.py:generate_names", "yargy/rule/bnf.py:BNFRule", "yargy/rule/constructors.py:Production.__str__", "yargy/pipelines.py:PipelineBNFRule"]}
{"id": "C60", "title": "Rules that use up tokens give parsers that end", "statement": "Take any rule in which nothing that may be empty is repeated without an upper bound, and in which no forward rule stands for itself without a token beside it (decided on the rule as the user wrote it, optional parts counted as possibly empty). Every parser built from it ends on every text: extract, findall and match return or raise after finitely many steps. In particular a rule without forward rules, and a rule whose forward rules and repeated parts each contain a required predicate.", "quantifier": "every program that makes rules, defines forward rules and builds parsers, every rule of this kind, every text", "why_tests_cant": "termination on all texts, for all rule graphs, after six rewriting passes that merge, copy and reorder rules; a chart that grows without end is not observable by a finite test", "anchors": ["yargy/parser.py:Parser.chart", "yargy/rule/transformators.py:SquashExtendedTransformator", "yargy/rule/transformators.py:ReplaceExtendedTransformator", "yargy/rule/transformators.py:ReplaceEmptyTransformator", "yargy/rule/transformators.py:FlattenTransformator", "yargy/rule/bnf.py:RemoveForwardTransformator"]}
{"id": "C61", "title": "From the rule to the result", "statement": "For a rule of C60 that is complete (forward rules are defined, predicates and gazetteer words are known to the tokenizer), Parser(rule) succeeds, and on every text nothing raises: extract reports exactly the ranges of tokens the rule accepts, findall returns the choice among them that covers most tokens, the first in order among those, and match finds the whole text if the rule accepts it.", "quantifier": "every program that makes rules, every complete rule, every recursion limit from some point on, every text", "why_tests_cant": "total correctness of the whole pipeline for all rules and texts; tests run single rules on single lines", "anchors": ["yargy/parser.py:Parser.__init__", "yargy/parser.py:Parser.extract", "yargy/parser.py:Parser.findall", "yargy/parser.py:Parser.match", "yargy/rule/bnf.py:BNFTransformator"]}
{"id": "C62", "title": "The drawing of a rule is the rule", "statement": "rule.as_dot ends on every rule, recursive or shared parts included, and its source shows every rule, production and predicate object reachable from the rule exactly once, labelled and coloured by its kind, the rule itself first; for each of them there is one arrow to each of its parts, in order, and the arrow to the main term of a production (unless it is the first term) is dark. Two rules with the same drawing are built in the same way.", "quantifier": "every rule of every program, before and after building parsers", "why_tests_cant": "all rule graphs, with sharing and cycles of any shape", "anchors": ["yargy/rule/constructors.py:Rule.as_dot", "yargy/rule/constructors.py:bfs_rule", "yargy/rule/transformators.py:DotRuleTransformator", "yargy/dot.py:DotTransformator", "yargy/dot.py:Graph.source"]}
{"id": "C63", "title": "The drawing of a tree is the tree", "statement": "tree.as_dot shows every node and leaf of the tree exactly once, nodes with the label of their rule (green if it gives facts), leaves with their word, an arrow to every child in order, and exactly one dashed line between any two nodes whose rules carry the same relation object, labelled with the relation.", "quantifier": "every tree", "why_tests_cant": "all trees and all ways relations are spread over them", "anchors": ["yargy/tree/constructors.py:Tree.as_dot", "yargy/tree/constructors.py:dfs_tree", "yargy/tree/transformators.py:DotTreeTransformator", "yargy/relations/graph.py:RelationsGraph"]}
{"id": "C64", "title": "Facts compare by value", "statement": "Two facts are equal exactly if they are of the same class and all their attributes are equal, at any depth; this is an equivalence. A fact that was found equals Cls(**kwargs) exactly if its class is Cls and every attribute equals what was given for it, or, if nothing was given, an empty list for a repeatable attribute and the default for any other; the order of the arguments makes no difference, nor does the text the fact comes from. Equal facts of matches have the same JSON.", "quantifier": "every fact class, every tree with interpretations, every list of keyword arguments, every notion of equality of the objects held", "why_tests_cant": "tests compare single facts with single literals; nesting is unbounded and equality must be right for unequal facts too", "anchors": ["yargy/record.py:Record.__eq__", "yargy/interpretation/fact.py:Fact.__init__", "yargy/interpretation/fact.py:InterpretatorFact.normalized", "yargy/parser.py:Match.fact"]}
{"id": "C65", "title": "Facts can be put in sets", "statement": "Facts can be used as members of sets and keys of dictionaries: every fact has a hash, and equal facts have equal hashes.", "quantifier": "every fact class and every fact", "why_tests_cant": "all pairs of equal facts", "anchors": ["yargy/record.py:Record.__hash__", "yargy/interpretation/fact.py:Fact"]}
{"id": "C66", "title": "A gazetteer recognises its own lines", "statement": "The parser of pipeline(lines), caseless_pipeline(lines) or morph_pipeline(lines) is built if every line has a word, and match(text) is a match of the whole text exactly if the words of the text are, one by one, those of one of the lines: equal, equal in lower case, or with a normal form in common. In particular match(line) gives every word of the line, and extract finds a line in every text in which it stands between white space (for morph_pipeline: if the analyzer knows some reading of each word, and a word that is not Russian is its own normal form in lower case).", "quantifier": "every list of lines, every tokenizer with rules, every tagger that only adds tags, every analyzer, every text", "why_tests_cant": "all lines and all texts; the words of a line are cut by the same tokenizer as the text, normal forms of line and text must meet through the index of the gazetteer", "anchors": ["yargy/pipelines.py:MorphPipelineScheme", "yargy/pipelines.py:PipelineBNFRule.predict", "yargy/tokenizer.py:Tokenizer.split", "yargy/parser.py:Parser.match"]}
{"id": "C67", "title": "Matches are pieces of the text", "statement": "With the default tokenizer rules every match of extract, findall and match describes a piece of the text: match.span is inside the text and not empty, begins where the first token of the match begins and ends where its last token ends; the tokens are in order, do not overlap, and token.value is text[token.span.start:token.span.stop]; what is between them is white space without line breaks. The spans of findall do not overlap and are in order. After the match of match(text) there is only white space.", "quantifier": "every rule any program makes, every text, every tagger that only adds tags, every classification of characters", "why_tests_cant": "offsets must be right for all texts and all rules, after scanning, completion, trimming of empty nodes and constraining of tokens", "anchors": ["yargy/parser.py:Match", "yargy/parser.py:Parser.findall", "yargy/tokenizer.py:Tokenizer.__call__", "yargy/span.py:get_tokens_span"]}
{"id": "C68", "title": "White space separates", "statement": "The tokens of a + c + b, for a white space character c other than a line break, are the tokens of a followed by the tokens of b, moved by len(a) + 1; likewise for every tokenizer whose patterns use c nowhere.", "quantifier": "every a, b and c, every classification of characters in which letters, digits and punctuation are no white space", "why_tests_cant": "all texts; finditer works on the whole string with one alternation of all patterns", "anchors": ["yargy/tokenizer.py:Tokenizer.__call__", "yargy/tokenizer.py:RULES"]}
{"id": "C69", "title": "What is found does not depend on the surroundings", "statement": "For a white space character c other than a line break: the spans that extract reports in a + c + b and that end within a are those it reports in a, and those that begin after c are the ones it reports in b, moved by len(a) + 1.", "quantifier": "every rule, every a and b, default tokenizer rules and default tagger", "why_tests_cant": "all rules and all texts; states of the chart that come from a take part in the columns of b", "anchors": ["yargy/parser.py:Parser.chart", "yargy/parser.py:Column.append", "yargy/parser.py:Parser.complete"]}
{"id": "C70", "title": "A sequence of predicates finds the runs of tokens it describes", "statement": "Parser(rule(p1, ..., pn)) is built if the token types and grammemes the predicates name are known to the tokenizer; extract reports exactly the runs of n neighbouring tokens (tokenizer and tagger applied) whose i-th token is what pi says; match returns the whole text exactly if it is such a run; with one predicate findall returns exactly the tokens that are what it says.", "quantifier": "every sequence of predicates (and_, or_, not_ included), every tokenizer, tagger and text", "why_tests_cant": "all predicates, tokenizers, taggers and texts; construction, activation, chart and selection of matches act together", "anchors": ["yargy/parser.py:Parser", "yargy/predicates/bank.py", "yargy/rule/constructors.py:Rule", "yargy/api.py:rule"]}
{"id": "C71", "title": "What a composite rule reports is composed of what its parts report", "statement": "For every text: Parser(or_(a, b, ...)) reports what Parser(a), Parser(b), ... report; Parser(rule(x, y, ...)) the ranges that split into what Parser(x), Parser(y), ... report one after another; repeatable(min, max) those that split into a permitted number of what the parser of the repeated rule reports; named, interpretation and define change nothing.", "quantifier": "every rule, every part of it, every text", "why_tests_cant": "all rules, parts and texts; parsers of parts and of the whole compile different grammars", "anchors": ["yargy/parser.py:Parser", "yargy/rule/transformators.py", "yargy/rule/constructors.py"]}
{"id": "C72", "title": "Exceptions of predicates reach the caller, and change nothing else", "statement": "A predicate that raises (a function given to custom, int() in gte and lte, the first letter of an empty value in is_capitalized) is not taken for one that refuses: the exception is the outcome of findall, extract and match. It comes from a predicate that is written in the rule, asked about a token of the text that follows a beginning of the rule; for match only from the beginning of the text on. Texts without such tokens, and calls that return, are not affected by what predicates do elsewhere.", "quantifier": "every rule, every history of the program, every tokenizer, every function of the user, every text", "why_tests_cant": "all functions, rules and texts; which predicates are asked about which tokens is decided by the chart", "anchors": ["yargy/parser.py:Parser.scan", "yargy/parser.py:Parser.chart", "yargy/predicates/bank.py:custom", "yargy/predicates/bank.py:is_capitalized"]}
{"id": "C73", "title": "Spans, tokens and matches compare by value", "statement": "Two spans are equal if they have the same ends, and a span is equal to the pair of its ends, whichever stands first; spans are totally ordered by start, then stop, in agreement with ==. Two tokens are equal exactly if they have the same text, place, type, tag, normal forms and grammemes; this is an equivalence. Equal tokens get the same answers of every predicate, exceptions included, are narrowed to equal tokens and have the same normal form. Two matches are equal exactly if their tokens are, one by one, and their spans; no two matches of findall are equal.", "quantifier": "all spans, tuples, tokens, predicates and matches; every rule, every history of the program, every text (findall)", "why_tests_cant": "all pairs and triples of tokens, all predicates and all texts", "anchors": ["yargy/record.py:Record.__eq__", "yargy/span.py:Span.__eq__", "yargy/span.py:Span.__lt__", "yargy/token.py:Token", "yargy/morph.py:Form", "yargy/parser.py:Match"]}
{"id": "C74", "title": "Forms can be put in sets; spans, tokens and matches cannot", "statement": "hash of a form returns, and equal forms have the same hash. hash of a span, of a token of any class and of a match raises TypeError, so that none of them can be an element of a set or a key: Span defines __eq__ and no __hash__, and the others contain a span or a list.", "quantifier": "all forms, spans, tokens and matches; all hash functions of strings, numbers, sets and tuples", "why_tests_cant": "all values and all hash functions", "anchors": ["yargy/record.py:Record.__hash__", "yargy/span.py:Span", "yargy/token.py:Token", "yargy/parser.py:Match"]}
{"id": "C75", "title": "Two words that agree are found exactly", "statement": "The parser of rule(rule(p).match(rel), rule(q).match(rel)) can be made if what p and q refer to is known. On every text extract reports exactly the pairs of neighbouring tokens of which the first is what p says, the second what q says, and which have forms that p and q leave (gram and is_single leave the forms they are about) between which the relation holds: no pair is missed because of what other pairs have done to the forms of a shared token. match returns a match exactly if the text is such a pair. findall returns such pairs without overlap, as many as possible, and every pair overlaps one of these. The tokens of a match are the two words, each with exactly those of its forms that p or q leaves and that stand in the relation to such a form of the other word, equal ones once; the forms of the first word keep their order, those of the second need not. With one rule object as both parts this is false.", "quantifier": "all predicates p and q, all relations, all histories of the program, all tokenizers, analyzers and texts whose tokens accepted by p or q have forms", "why_tests_cant": "forms of tokens are narrowed in place while matches are produced, so whether a pair is found might depend on every other pair of the text", "anchors": ["yargy/relations/graph.py", "yargy/relations/bank.py", "yargy/parser.py:Match", "yargy/parser.py:Parser.extract", "yargy/parser.py:Parser.findall", "yargy/tree/constructors.py:Leaf", "yargy/predicates/bank.py:gram"]}
{"id": "C76", "title": "A rule with slots fills a fact with the words it has found", "statement": "For a sequence of predicates in which some parts (one or several predicates) carry .interpretation(Fact.a), .interpretation(Fact.a.const(v)), .interpretation(Fact.a.custom(f)), .interpretation(Fact.a.normalized()), .interpretation(Fact.a.inflected(grams)) (these also with .custom(f) after them) and which carries .interpretation(Fact) as a whole, the parser can be made if what the predicates refer to is known; on every text extract reports exactly the runs of tokens that are what the predicates say, findall the best choice among them, match the text if it is such a run. match.fact of every match is the fact in which every attribute has the words of the text that stand in the place of its predicates (joined, one space where there was a gap), or the constant, or their normal or inflected forms (those of the first form of the word that its predicate leaves), or what the function makes of these; an attribute that is given twice has the last value, a repeatable one all of them in text order, one that is not given its default. as_json has the same values and leaves out None. If functions raise, match.fact and as_json raise what the first of them raises; they raise IndexError if a word that is to be normalized is left without forms.", "quantifier": "every such rule (any number of slots, any predicates), fact class, user functions, tokenizer, tagger and text, all three methods", "why_tests_cant": "all rules, facts and texts; tokenizing, activation, chart, selection, the passes over trees and the filling of facts act together", "anchors": ["yargy/interpretation/interpretator.py:FactInterpretator.__call__", "yargy/interpretation/interpretator.py:AttributeInterpretator.__call__", "yargy/interpretation/fact.py:InterpretatorFact", "yargy/tree/transformators.py:InterpretationTransformator", "yargy/parser.py:Match.fact", "yargy/token.py:join_tokens"]}
{"id": "C77", "title": "The tokens of a match have exactly the forms that the predicates leave", "statement": "For a rule without agreement relations (no .match(relation)), made by any program, and whatever it is built of: the tokens of every match that findall, extract or match return are the tokens of the text in order, each with exactly those of its forms that the predicate in its place leaves (gram keeps the forms with the grammeme, is_single those in the singular; all other predicates keep all forms, also and_, or_, not_ of these two, so and_(gram('NOUN'), ...) may be normalized as a verb), in their order; the tokens in the tree of the match are the same ones. The predicates are those of one reading of the rule. What other derivations, other matches and other parts of the chart have asked of the same tokens leaves no trace. match.fact and as_json are what the interpretations of that reading make of these tokens.", "quantifier": "every rule without relations (any recursion, alternatives, quantifiers, gazetteers), tagger, tokens and matches of all three methods", "why_tests_cant": "tokens are shared by all states of the chart and narrowed while the trees are built; no sample shows that no other derivation interferes", "anchors": ["yargy/predicates/bank.py:GramPredicate.constrain", "yargy/predicates/bank.py:is_single.constrain", "yargy/predicates/constructors.py:Predicate.constrain", "yargy/token.py:MorphToken.constrained", "yargy/parser.py:Parser.scan", "yargy/parser.py:prepare_match", "yargy/tree/constructors.py:Tree.constrain", "yargy/interpretation/interpretator.py:FactInterpretator.__call__"]}
{"id": "C78", "title": "Rules with alternatives, optional parts and repetitions fill a fact with what stands in the place of its attributes", "statement": "For a rule with .interpretation(Fact) on the whole and attributes of this fact on parts of it (Fact.a, also with const, custom, normalized, inflected), built of sequences, or_, optional, repeatable, names, gazetteers and recursion, such that no part with an attribute has interpretations inside: for every match of findall, extract and match the rule can be read as a sequence of predicates that accept the tokens of the match one by one, and match.fact has in each attribute what stands in its place in this reading (texts, normal forms, what a function makes of them; the last of several values, all for a repeatable attribute, the default if its part is left out or empty); as_json agrees; exceptions of user functions come out of match.fact. If optional parts stand directly after tokens (C61) and there are no relations, the parser is built and the three methods find exactly what the rule accepts.", "quantifier": "every such rule, fact class, user functions, tokenizer, tagger, text; all three methods", "why_tests_cant": "all rules and texts; the passes that compile rules, the chart, pruning of empty parts and interpretation act together", "anchors": ["yargy/interpretation/interpretator.py:FactInterpretator.__call__", "yargy/interpretation/fact.py:InterpretatorFact", "yargy/rule/transformators.py:RuleTransformator", "yargy/tree/transformators.py:InterpretationTransformator", "yargy/tree/transformators.py:PropogateEmptyTransformator", "yargy/parser.py:Match.fact"]}
{"id": "C79", "title": "Facts inside facts", "statement": "For a rule with .interpretation(Person) on the whole and any interpretations inside, to any depth, also recursively, with or_, optional, repeatable, names and forward rules around (such as NAME.interpretation(Person.name) where NAME is itself a rule with .interpretation(Name) and parts with attributes of Name): for every match of findall, extract and match the rule can be read as a sequence of predicates that accept the tokens one by one, and match.fact is a Person whose attributes are what this reading tells: for a plain part what stands in its place, for a part with a fact the Name that is filled in the same way from the words under it, or what the functions of Person.name.custom(f) (.custom(g)) make of this Name, or the value of Person.name.const(v) (Person.name.normalized() and inflected() raise TypeError on facts); the same for interpretations on top of each other (rule(...).interpretation(custom(f)).interpretation(Name.first).interpretation(Person.name)): the innermost works on the words, those around it on its value, attributes leave it as it is, and the outermost attribute says where it goes; an attribute or normalizer over several parts that are not all plain words raises TypeError (but const gives its value); the last of several values, all for a repeatable attribute, the default for what is left out or has no words. A fact directly inside a fact (FULL.interpretation(Name) within a rule with .interpretation(Name)) is merged into it: attributes it has got replace what there was, also in repeatable attributes, and what comes later is added; a fact of a class that is not a subclass gives nothing, and so do attributes of other classes and normalizers without an attribute around them. as_json is the nested dict, without the attributes that are None. An exception of a user function inside comes out of match.fact. If optional parts stand directly after tokens (C61) and there are no relations, the parser is built and the three methods find exactly what the rule accepts.", "quantifier": "every such rule and depth of nesting, fact classes, user functions, tokenizer, tagger, text; all three methods", "why_tests_cant": "all rules, depths and texts; a fact inside a fact may be merged, lost or given to the wrong attribute depending on the shape of the tree after pruning", "anchors": ["yargy/interpretation/interpretator.py:FactInterpretator.__call__", "yargy/interpretation/interpretator.py:AttributeInterpretator.__call__", "yargy/interpretation/interpretator.py:FactResult", "yargy/interpretation/fact.py:Fact.as_json", "yargy/tree/transformators.py:InterpretationTransformator", "yargy/parser.py:Match.fact", "yargy/interpretation/fact.py:InterpretatorFact.merge"]}
{"id": "C80", "title": "Facts of rules with agreement hold the words of the text", "statement": "For rules as in C78 and C79 whose parts may also carry agreement relations (.match(gnc) …), with anything else built before or after: for every match of findall, extract and match there is a reading of the rule whose predicates accept the tokens of the match one by one, and tokens that differ from those of the text only in that some, never all, of their forms were removed, so that match.fact (and as_json) has in each attribute, and in the facts inside, the words that stand in its place as they are in the text, or what const and custom make of them; with normalized() and inflected() the normal or inflected forms of the first form that is left. Relations never mix up, lose or move the words of a fact.", "quantifier": "every such rule, relations, fact classes, user functions, tokenizer, tagger, text, every program; all three methods", "why_tests_cant": "all rules, relations and texts; trees share leaves that relations change in place while facts are made afterwards", "anchors": ["yargy/relations/graph.py:TokenRelationsGraph.validate", "yargy/tree/transformators.py:InterpretationTransformator", "yargy/interpretation/interpretator.py:FactInterpretator.__call__", "yargy/interpretation/normalizer.py:NormalizedNormalizer", "yargy/parser.py:Match.fact"]}
{"id": "C81", "title": "The spans of a fact are the places of the words it was made of", "statement": "For rules as in C79 and C80 and every match: match.fact.spans has, for the same reading of the rule that gives match.fact, exactly one span for each part under an attribute (of the fact itself, or of a fact inside it) whose value is in the fact: from the start of the first word of the part to the end of its last word in the text; nothing for words outside of attributes, for parts without words and for values that later ones have replaced (also by merging a fact directly inside). normalized, inflected and custom do not change the spans. The spans are in text order. If a value that is left in the fact comes from const, asking for spans raises AttributeError.", "quantifier": "every such rule and depth of nesting, relations, fact classes, user functions, tokenizer, tagger, text, every program; all three methods", "why_tests_cant": "all rules, depths of nesting, orders of attributes and texts; replaced and merged values keep spans only if the bookkeeping of modified attributes is right", "anchors": ["yargy/interpretation/fact.py:Fact.spans", "yargy/interpretation/fact.py:InterpretatorFact.spans", "yargy/interpretation/interpretator.py:Chain.spans", "yargy/interpretation/interpretator.py:NormalizerResult.spans", "yargy/token.py:get_tokens_span"]}
