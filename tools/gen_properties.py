#!/usr/bin/env python3
# Writes /verif/properties.jsonl (one JSON object per line).
import json
P=[]
def p(id,title,statement,quantifier,why,anchors):
    P.append(dict(id=id,title=title,statement=statement,quantifier=quantifier,why_tests_cant=why,anchors=anchors))
BS="pkg/bnf/tablegen/byteset/byteset.go"
CST="pkg/cst/cst.go"
PA="pkg/parser/parser.go"
TG="pkg/bnf/tablegen/tablegen.go"
AST="pkg/bnf/ast.go"
FC="pkg/bnf/fromcst/fromcst.go"
SG="pkg/bnf/selfgrammar.go"
# ---------------- byteset
p("C01","ByteSet membership after any history",
  "Start from New(v1..vk) and apply any sequence of Add/Remove calls. Contains(x) is true exactly when the last operation that named x was an Add (or x was among v1..vk and was never named afterwards).",
  "every initial list of bytes, every finite sequence of Add/Remove calls, every byte x",
  "2^256 set states and unbounded histories; a wrong word index or shift only shows on particular byte pairs",
  [BS+":New",BS+":Add",BS+":Remove",BS+":Contains"])
p("C02","ByteSet Union / Equal / IsSubSet / IsSuperSet are the set operations",
  "Union(s,t) contains exactly the bytes of s or t; Equal(s,t) is true iff s and t have the same members; IsSubSet(s,t) iff every member of s is in t; IsSuperSet(s,t) iff every member of t is in s.",
  "every pair of ByteSet values (not only those built by a short history)",
  "2^512 pairs of sets",
  [BS+":Union",BS+":Equal",BS+":IsSubSet",BS+":IsSuperSet"])
p("C03","ByteSet.Len counts the members and terminates",
  "Len() returns for every set, and its value is the number of bytes b with Contains(b) = true.",
  "every ByteSet value", "2^256 sets; the bit-twiddling loop must terminate on all of them",
  [BS+":Len",BS+":popCount"])
p("C04","ByteSet.Bytes lists exactly the members in increasing order",
  "Bytes() returns for every set; its result is strictly increasing, contains b iff Contains(b), has Len() elements, and New(Bytes()...) is Equal to the original set. As the package documentation promises, Len, Bytes and String take one loop round per member.",
  "every ByteSet value","the De Bruijn lookup must be right for each of 64 bit positions in each of four words and every combination of set bits",
  [BS+":Bytes",BS+":realBytesF",BS+":log2pow2n",BS+":walkBytes"])
p("C05","ByteSet.String is the bracketed hexadecimal listing of Bytes",
  "String() is \"[]\" for the empty set and otherwise '[' + the two-digit upper-case hex codes of Bytes() separated by single spaces + ']'; two sets have the same String iff they are Equal.",
  "every ByteSet value","unbounded in practice (2^256 values)",
  [BS+":String"])
# ---------------- cst
p("C06","Walk visits every node once, in depth-first left-to-right pre-order",
  "If a visitor never returns nil, Walk calls Visit on every node of the tree exactly once, parent before children, children left to right.",
  "every finite tree of any depth and width, every visitor that never prunes","tree shapes are unbounded",
  [CST+":Walk",CST+":NewNode"])
p("C07","Walk prunes exactly below nodes where Visit returns nil, and hands each child the visitor returned for its parent",
  "A node is visited iff Visit returned non-nil on all its proper ancestors; it is visited with the visitor returned by the Visit call on its parent; the order is still pre-order.",
  "every tree, every (stateful) visitor","visitor behaviours and trees are unbounded",
  [CST+":Walk",CST+":Visitor"])
# ---------------- parser
p("C08","Parse returns a tree and names, or an error - and panics only on caller misuse",
  "For a table whose operations come from OpTerminal/OpNonTerminal and a non-nil names map, no call of Parse panics, whatever the table and source: it returns (tree, names, nil) or (nil, nil, err) or does not return. Internal 'unreachable' / 'trying to pop from empty stack' / 'combine chars' panics never fire. With a nil names map Parse never succeeds: where it would have succeeded it panics.",
  "every table built with the exported constructors, every names map, every source",
  "tables, inputs and stack histories are unbounded",
  [PA+":Parse",PA+":parse",PA+":processFunction",PA+":processEOS",PA+":NewLL1Parser"])
p("C09","Configuration and source errors are reported before any parsing",
  "Parse with an empty table fails with 'empty parsing table'; with a table lacking row 0 it fails with 'no rule for base entry point'; otherwise nil sources give 'empty source', unsupported ones and nil *bytes.Buffer give 'invalid source', and a reader's own error is returned unchanged. None of these depends on the content of the source.",
  "every table, names map and source value","source values and tables are unbounded",
  [PA+":Parse",PA+":readSource"])
p("C10","Every returned node spans a well-nested piece of the source",
  "In a returned tree every node has Pos <= End, the children of a node tile it (first child starts at Pos, each child starts where its left sibling ends, the last child ends at End), and - for tables without NUL bytes in terminals - End <= len(src), so slicing the source with any node's span cannot panic.",
  "every table, every source, every node of the returned tree","trees and inputs are unbounded",
  [PA+":processFunction",PA+":processChar",PA+":processTableNonTerminal",PA+":processTerminal"])
p("C11","The leaves of the returned tree spell the consumed text",
  "Concatenating src[Pos:End] over the leaves, left to right, gives src[0:root.End]; every literal leaf's slice is literally the string of the OpTerminal it came from.",
  "every table without NUL terminals, every source","inputs unbounded",
  [PA+":processChar",PA+":processFunction"])
p("C12","A successful Parse consumed the whole source",
  "If src has no NUL byte and Parse succeeds (terminals NUL-free), the root has type 0, Pos 0 and End = len(src).",
  "every table, every NUL-free source","inputs unbounded",
  [PA+":processEOS",PA+":peek"])
p("C13","Parse succeeds with tree t exactly when t is the table-directed derivation of the source",
  "Parse(src) returns tree t iff t is a derivation tree from non-terminal 0 in which every non-terminal node of type n starting at position p has children given, one per operation, by table[n][byte at p] (0 at end of input), every literal matches the source, and the byte after the derivation is end of input. There is at most one such tree.",
  "every table built with exported constructors, every source, every tree","inputs, tables and trees unbounded",
  [PA+":parse",PA+":processTableNonTerminal",PA+":processTerminal",PA+":processFunction"])
p("C14","The kind of source does not matter",
  "A string, a []byte, a *bytes.Buffer (unread part) and an io.Reader delivering the same bytes give identical results.",
  "every table, names and byte sequence","inputs unbounded",[PA+":readSource",PA+":Parse"])
p("C15","Names never influence the tree; the returned names are the given ones plus the two built-ins",
  "Acceptance and the tree depend only on the table and the source. On success the returned map binds -1 to \"_literal\", -2 to \"_nothing\" and every other key exactly as the map given to NewLL1Parser.",
  "every pair of non-nil names maps, every table and source","maps and inputs unbounded",
  [PA+":processEOS",PA+":processTableNonTerminal"])
p("C16","A parser is reusable: earlier Parse calls do not affect later ones",
  "For every sequence of Parse calls on one parser, every call returns the same tree or the same error (including message) as it would on a fresh parser, although Parse writes to the shared names map.",
  "every finite sequence of sources, every table whose non-terminal references are >= 0 for the message part","histories unbounded",
  [PA+":Parse",PA+":processEOS"])
p("C17","Interleaved Parse calls on one parser do not disturb each other",
  "For any number of goroutines each running Parse on the same parser, with map operations atomic, every interleaving of their steps gives each goroutine the result it would get alone. (The real map writes are unsynchronised: two successful Parse calls race on the names map; that runtime fault is outside the logic and is recorded as a finding.)",
  "every number of goroutines, every schedule","schedules unbounded",
  [PA+":processEOS",PA+":ll1parser_t"])
p("C18","A parse error is determined by the prefix read so far",
  "If Parse(src) fails at byte offset k with message m, then Parse of every source that agrees with src on bytes 0..k (and has end of input at k iff src does) fails with the same message m: later bytes are never looked at.",
  "every table, every pair of sources sharing the prefix","input pairs unbounded",
  [PA+":peek",PA+":processChar",PA+":processTableNonTerminal"])
p("C19","Built-in non-terminals: -2 accepts exactly LF or CR LF, every other negative number is an error",
  "OpNonTerminal(-2) derives exactly \"\\n\" (one literal child) or \"\\r\\n\" (two literal children) and nothing else; OpNonTerminal(n) for other n < 0 always fails with 'unknown built in type'.",
  "every table, source and position","inputs unbounded",[PA+":processBuiltinNonTerminal"])
p("C20","Parse terminates when the table has no left recursion, and diverges on a left-recursive table",
  "If the row numbers can be ranked so that in every cell each non-terminal operation before the first non-empty literal goes down in rank, Parse returns on every source. (In cells for byte 0 a literal of NUL bytes only does not count as non-empty: behind the end of the source it matches without end, and the table 0 -> NUL <0> hangs on the empty source.) A table whose cell (0,b) starts with OpNonTerminal(0) never returns on any source starting with b.",
  "every such table, every source","non-termination cannot be observed by a test",
  [PA+":parse",PA+":processTableNonTerminal"])
p("C21","Everything after the first NUL byte is ignored",
  "With NUL-free terminals Parse(src ++ 0 ++ junk) returns exactly what Parse(src) returns (src NUL-free): a NUL byte is indistinguishable from end of input.",
  "every table with NUL-free terminals, every src and junk","inputs unbounded",
  [PA+":peek",PA+":processEOS"])
# ---------------- tablegen
p("C22","FromGrammar terminates on every grammar",
  "FromGrammar returns (a table, an error) or panics; its fix-point loops never run forever, for any grammar including cyclic, left-recursive and ill-formed ones.",
  "every grammar","grammars unbounded; non-termination is not testable",
  [TG+":findFirsts",TG+":findFollows",TG+":FromGrammar"])
p("C23","FromGrammar does not panic on well-formed grammars",
  "If the grammar has at least one rule, no terminal is the empty string and the empty-string symbol only occurs as the only symbol of its sequence, FromGrammar returns normally. (It does panic on the empty grammar, on empty terminals and on sequences like \"a\" \"\".)",
  "every such grammar","grammars unbounded",
  [TG+":terminalFirsts",TG+":findFollows",TG+":makeTableRow"])
p("C24","A generated table is closed: parsing with it never hits a table error",
  "If FromGrammar succeeds on g, the table has exactly rows 0..len(g.Rules)-1, every non-terminal operation in it refers to an existing row, and NewLL1Parser(table,names).Parse(src) never panics, never fails with 'no rules for non terminal: ..', 'unknown built in type', 'empty parsing table', 'no rule for base entry point' or 'prod stack empty'.",
  "every grammar for which FromGrammar succeeds, every source","grammars and inputs unbounded",
  [TG+":makeTable",TG+":makeTableRow",PA+":processTableNonTerminal"])
p("C25","The naming map names each row by its rule head, whatever Go's map iteration order",
  "On success names[i] = head of rule i for every i that is the last rule with that head, and names has no other entry; the result does not depend on map iteration order. With distinct heads every row is named.",
  "every grammar, every iteration order of Go maps","iteration orders are randomised by the runtime; grammars unbounded",
  [TG+":enumerate",TG+":FromGrammar"])
p("C26","Cells hold the alternatives predicted by their first byte",
  "On success, cell (i,b) with b != 0 is present iff some alternative of rule i can begin with b, or some alternative can be empty and b can follow (in the code's sense); if any alternative of rule i can begin with b the cell is the concatenation, in order, of all alternatives of rule i that can begin with b (so it is that alternative when there is only one), otherwise it is the empty list.",
  "every grammar on which FromGrammar succeeds whose terminals do not begin with NUL (the others: C74), every row and byte","grammars unbounded",
  [TG+":makeTableRow",TG+":sequenceFirsts"])
p("C27","FIRST sets are exact",
  "A sequence's predicted first bytes are exactly the bytes that can begin a string derived from it (textbook FIRST), and it is considered empty-able iff it derives the empty string. Observable as: in a grammar with productive non-terminals cell (i,b) is non-empty iff some sentence derived from rule i starts with b.",
  "every grammar on which FromGrammar succeeds whose terminals do not begin with NUL (the others: C74)","fix-point over unbounded grammars",
  [TG+":findFirsts",TG+":ruleFirsts",TG+":sequenceFirsts",TG+":substitutuionFirsts"])
p("C28","FOLLOW sets: exactly the next-symbol rule, textbook FOLLOW when no nullable symbol has two neighbours after a non-terminal",
  "The empty alternatives are predicted on exactly the least sets closed under the code's rules (end of input for rule 0; FIRST of the next symbol; FOLLOW of the enclosing rule when the non-terminal is last or the next symbol is nullable). If in every alternative a nullable symbol right after a non-terminal is the last symbol, these are the textbook FOLLOW sets; in general they are not (witnesses in both directions).",
  "every grammar whose terminals do not begin with NUL (the others: C74)","fix-point over unbounded grammars",
  [TG+":findFollows",TG+":ruleFollowsInSequence",TG+":symbolFirsts"])
p("C29","Textbook LL(1) grammars without nullable gaps are never rejected as ambiguous",
  "If a well-formed grammar is LL(1) in the textbook sense and has no nullable gap (see C28), FromGrammar succeeds on it. (Without the gap condition it can be rejected: witness.)",
  "every such grammar whose terminals do not begin with NUL (the others: C74)","grammars unbounded",
  [TG+":makeTableRow",TG+":FromGrammar"])
p("C30","Which ambiguous grammars are reported",
  "FromGrammar fails with 'multiple parser op sets' exactly when some rule has a nullable alternative whose FOLLOW meets an already filled cell (an earlier alternative's first bytes or an earlier nullable alternative). FIRST/FIRST clashes, and nullable-before-FIRST clashes, are not reported: the grammar is accepted and the cell holds the concatenation.",
  "every well-formed grammar whose terminals do not begin with NUL (the others: C74)","grammars unbounded",
  [TG+":makeTableRow"])
p("C31","References to undefined non-terminals are reported",
  "If FromGrammar succeeds, every alternative that mentions an undefined non-terminal has an empty predicted first set and is not nullable (it can never be chosen). Hence if all non-terminals before it are productive, FromGrammar fails.",
  "every grammar whose terminals do not begin with NUL (the others: C74)","grammars unbounded",
  [TG+":sequenceFirsts",TG+":symbolFirsts",TG+":makeTableRow"])
p("C32","Generated parsers are sound: what they accept is in the grammar's language",
  "If alternatives of each rule have disjoint first sets and FromGrammar(g) succeeds, then Parse(src) success implies that src (up to its first NUL) is a sentence derivable from the first rule of g.",
  "every such grammar with NUL-free terminals and every source","unbounded",
  [TG+":FromGrammar",PA+":Parse"])
p("C33","Generated parsers are complete for LL(1) grammars",
  "If g is LL(1) without nullable gaps (or more generally every textbook FOLLOW byte of a nullable rule has a cell), every NUL-free sentence of g is accepted by the generated parser. (For LL(1) grammars with nullable gaps this fails: witness.)",
  "every such grammar with NUL-free terminals and every sentence","unbounded",
  [TG+":FromGrammar",PA+":Parse",TG+":ruleFollowsInSequence"])
p("C34","Generated parsers for LL(1) grammars terminate and decide the language",
  "For an LL(1) grammar on which FromGrammar succeeds, Parse terminates on every source (also left recursion cannot occur); with C33's condition, on NUL-free sources it succeeds iff src is in the language and otherwise returns an error.",
  "every LL(1) grammar and source; for termination no terminal may begin with NUL (else it may hang: C74), for the decision none may contain NUL","non-termination is not testable; unbounded",
  [PA+":parse",TG+":FromGrammar"])
p("C35","Returned trees are derivation trees of the grammar",
  "Under C32's hypotheses each non-terminal node of type i has children that follow, symbol by symbol, one alternative of rule i, or it is an empty node (single _nothing child) and rule i derives the empty string.",
  "every such grammar with NUL-free terminals, every source, every node","unbounded",
  [TG+":makeTableRow",PA+":processFunction"])
p("C36","Left recursion is not detected and makes the generated parser hang",
  "For the left-recursive grammar T ::= T \"B\" | \"_\" (any order) FromGrammar reports no error, and the generated parser never returns on any source that starts with \"_\" when the recursive alternative comes first.",
  "every source starting with that byte","non-termination is not testable",
  [TG+":sequenceFirsts",TG+":makeTableRow",PA+":parse"])
# ---------------- ast
p("C37","Printed terminals are unambiguous",
  "SymbolTerminal.String never prints a raw tab, LF or CR, is delimited by one kind of quote that does not occur unescaped inside, and undoing the escapes gives back the name; different names print differently.",
  "every byte string as terminal name","strings unbounded",
  [AST+":SymbolTerminal.String"])
p("C38","Grammar.String prints one line per rule",
  "Rule.String() is <head>, ::=, and the symbols of the alternatives with | between the alternatives, all separated by single blanks. For rule and non-terminal names without line breaks, splitting Grammar.String() at '\\n' gives exactly the rules' String() in order (and \"\" for the empty grammar).",
  "every such grammar","grammars unbounded",
  [AST+":Grammar.String",AST+":Rule.String"])
p("C39","Print / parse / ToAST round trip",
  "For every grammar g with at least one rule, non-empty alternatives, legal rule names and terminals over printable ASCII, tab, LF, CR (non-empty), parsing g.String() with the parser generated from SelfGrammar() and converting with SelfCSTtoASTBindings().ToAST gives back exactly g. No other grammar survives this round trip: a name that is not legal can even make the text read back as other rules.",
  "every grammar","the repository's example checks one grammar; grammars are unbounded",
  [AST+":Grammar.String",SG+":SelfGrammar",FC+":ToAST",PA+":Parse",TG+":FromGrammar"])
p("C40","Layout does not matter",
  "The same AST results whatever the number of spaces where blanks are allowed, blank lines, LF or CR LF line ends, and either quoting style for each terminal that admits it.",
  "every grammar as in C39 and every layout","layouts unbounded",
  [SG+":SelfGrammar",FC+":ToAST"])
p("C41","ToAST never fails on trees parsed by the BNF parser",
  "If the parser generated from SelfGrammar() accepts src (NUL-free), ToAST(tree, src) returns a grammar - no error, no slice panic - and that grammar satisfies the conditions of C39.",
  "every accepted source","sources unbounded",
  [FC+":ToAST",FC+":parseRule",FC+":parseSymbol",FC+":parseEscape"])
p("C42","Normalising is idempotent",
  "For every accepted source, printing the AST obtained from it and parsing that text again gives the same AST.",
  "every accepted source","sources unbounded",
  [FC+":ToAST",AST+":Grammar.String"])
p("C43","IgnoreNodeTypes is a set: its order and duplicates do not matter",
  "ToAST gives the same result for any permutation or duplication of IgnoreNodeTypes, and the search for rules, heads, tails, alternatives, symbols, terminals and escape letters skips exactly the subtrees whose root type is listed (the collection of a terminal's text skips nothing).",
  "every bindings value, every tree and text","unbounded",
  [FC+":ToAST",FC+":BNFCSTtoASTBindings.lrTraverse"])
p("C44","ToAST preserves order and count",
  "ToAST applied to any tree yields one rule per maximal rule node in left-to-right order, one sequence per maximal sequence node of its tail and one symbol per maximal symbol node, or an error of the first failing one.",
  "every tree and bindings","unbounded",
  [FC+":lrTraverse",FC+":flexVisitor.Visit",FC+":parseSubstitution",FC+":parseSequence"])
p("C45","The BNF grammar is LL(1) and its parser decides exactly its language",
  "SelfGrammar() satisfies the textbook LL(1) conditions; FromGrammar(SelfGrammar()) succeeds with the table recorded in the repository's reference file; its parser terminates on every source and accepts a NUL-free source iff it is a sentence of SelfGrammar().",
  "every source","sources unbounded",
  [SG+":SelfGrammar",TG+":FromGrammar",PA+":Parse"])
p("C46","Renumbering or duplicate rule heads: the last rule with a given head wins",
  "When several rules share a head every reference goes to the last of them, while parsing starts at the first rule; no error is reported. In a returned tree the root is of type 0, and a rule whose head is redefined labels no other node.",
  "every grammar with duplicate heads on which FromGrammar succeeds","grammars unbounded",
  [TG+":enumerate",TG+":makeTableRow"])
p("C47","The escape-sequence node number is fixed, not taken from the bindings",
  "While collecting a terminal's text ToAST decodes escapes exactly at nodes of type 16 and copies literal leaves, whatever the bindings say; with SelfCSTtoASTBindings the five escapes t n r \" \\ decode to TAB LF CR \" \\.",
  "every tree and bindings","unbounded",
  [FC+":parseTerminalName",FC+":parseEscape",FC+":SelfCSTtoASTBindings"])
p("C48","ToAST does not panic on a tree that lies in its text",
  "If every node of the tree has Position <= Stop <= len(text), ToAST(tree, text) returns a grammar or an error, whatever the bindings; in particular for every tree returned by Parser.Parse with a NUL-free table and the text it was parsed from.",
  "every tree, text, bindings; every parser and source","unbounded",
  [FC+":ToAST",FC+":nodeName",PA+":Parse"])
p("C49","Error messages show the byte at the failure and the rule that was tried",
  "When parsing fails it fails at one offset k, and err.Error() is exactly the documented format filled with the byte at k (character and decimal code) and, where a row is named, with its name from the names map or Unknown_<number>. A parser generated from a grammar with distinct heads names the rule by its head, and no alternative of that rule can begin with the byte shown.",
  "every parser, names map and source; every grammar","unbounded inputs, tables and names",
  [PA+":Parse",PA+":charCode",PA+":processTableNonTerminal",PA+":processChar",PA+":processEOS"])
p("C50","The exact language of a generated parser",
  "If the alternatives of each rule have disjoint first sets and FromGrammar(g) succeeds, the generated parser accepts a NUL-free source exactly when there is a derivation of it from the first rule in which every use of a rule is predicted by the next byte: the alternative used can begin with that byte, or no alternative can and the rule is nullable and the byte may follow it by the next-symbol rule. Nullable gaps and FIRST/FOLLOW overlaps are allowed.",
  "every grammar with disjoint first sets that FromGrammar accepts, every NUL-free source","quantifies over all grammars and all sources",
  [TG+":FromGrammar",PA+":Parse"])
p("C51","A generated parser stops at the first byte that cannot continue a sentence",
  "When the generated parser rejects a source at offset k, src[0:k] is the beginning of some sentence of the grammar (disjoint first sets, productive non-terminals). If the grammar is also LL(1) without nullable gaps, no sentence begins with src[0:k+1] (or, at the end of the source, src is no sentence): the error comes at the first possible byte. In an LL(1) grammar with nullable gaps an error that comes too early is always a 'no rule' message for a nullable rule and a byte that can follow it in the textbook sense but not by FromGrammar's next-symbol rule; and a reduced LL(1) grammar's parser reports every error at the first possible byte iff it accepts every sentence.",
  "every such grammar, every rejected source","quantifies over all sentences of all grammars",
  [TG+":FromGrammar",PA+":Parse"])
p("C52","Parsing takes a linear number of steps and gives trees of linear size",
  "For every table without left recursion (in particular for every LL(1) grammar's table) there is a constant K depending only on the table such that Parse returns after at most K*(len(src)+1) iterations of its main loop, and a returned tree has at most K*(len(src)+1) nodes.",
  "every such table and grammar without terminals that begin with NUL, every source","a bound for all source lengths; tests only time a few",
  [PA+":parse",PA+":Parse",TG+":FromGrammar"])
p("C53","The JSON grammar of the example decides JSON",
  "json.bnf is accepted by the parser generated from SelfGrammar() and converted by ToAST to the JSON grammar; FromGrammar builds a table for it; the grammar is LL(1); the generated JSON parser returns on every source and accepts a NUL-free source iff it is a JSON document of the dialect (printable ASCII strings, 3-digit \\u escapes, no blanks in empty arrays); a document denotes one value.",
  "every source text, every map iteration order","texts unbounded; the repository has one test.json",
  ["examples/json/json.bnf","examples/json/main.go:main",TG+":FromGrammar",PA+":Parse",FC+":ToAST"])
p("C54","The JSON example prints exactly the key structure of the document",
  "With json.bnf (in any layout), the program always ends without panic: if the JSON file holds a document it prints one line per key in order of appearance, indented by two blanks per enclosing object or array, and exits 0; otherwise it prints nothing but the table line, writes the parser's error to standard error and exits 1; unreadable files are reported with exit code 1.",
  "every contents of the JSON file, every layout of json.bnf, every map order","file contents unbounded",
  ["examples/json/main.go:main","examples/json/main.go:keyPrintingVisitor.Visit",CST+":Walk"])
p("C55","The self-parsing example always reports equality",
  "isGrammarsEqual is equality of grammars, and the program that prints SelfGrammar(), parses the text with the parser generated from it and converts it back ends with 'Resulted AST equal to initial' and exit code 0 for every map iteration order.",
  "every pair of grammars; every map iteration order","map order differs between runs; grammars unbounded",
  ["examples/parseownsyntax/main.go:isGrammarsEqual","examples/parseownsyntax/main.go:main"])
p("C56","FprintTreeNamed prints every node once, in pre-order, indented by depth",
  "For every tree, names map and text: if every node lies in the text, the helper writes one line per node in pre-order with two blanks per level, the type's name (or Unknown_<n>) and the text the node spans; otherwise it panics. Trees returned by Parse for the parsed text never panic.",
  "every tree, names map, text","trees unbounded; one reference tree in the repository",
  ["test/cst/cst_test.go:FprintTreeNamed","test/cst/cst_test.go:namedVisitor.Visit",CST+":Walk"])
p("C57","IsMapsIntStringEqual decides map equality for every iteration order",
  "The test helper's verdict is true iff both maps hold the same entries, and its three result maps are the entries only in a, only in b, and the keys with different values, whatever order Go iterates the maps in.",
  "every two maps and every iteration order","map iteration order is random; deletion during iteration",
  ["test/testcommon/testcommon.go:IsMapsIntStringEqual"])
p("C58","Renaming non-terminals changes nothing but names",
  "Consistently renaming the non-terminals of a grammar (different names stay different) leaves FromGrammar's verdict and table unchanged (errors mention the renamed non-terminal, the naming is renamed), and the two parsers return on every source the same tree, or the same error with the renamed rule, or both panic alike, or both run forever.",
  "every grammar, injective renaming, map iteration order and source","all grammars times all renamings times all inputs",
  [TG+":FromGrammar",PA+":Parse"])
p("C59","From BNF text to a deciding parser",
  "For every text that writes (in any layout) an LL(1) grammar without nullable gaps, with distinct heads, defined non-terminals and \"\" only alone: parsing the text with the BNF parser, ToAST and FromGrammar all succeed, and the resulting parser accepts exactly the strings of the grammar's language. A NUL-free text that writes no grammar is rejected by the BNF parser.",
  "every text, grammar, map iteration order and input","composition of four unbounded components",
  [PA+":Parse",FC+":ToAST",TG+":FromGrammar",SG+":SelfGrammar"])
p("C60","LL(1) grammars are unambiguous and the returned tree is the derivation tree",
  "In an LL(1) grammar every sentence has exactly one derivation tree, and a generated parser (with complete FOLLOW information) returns exactly the picture of it: same rules, same children, offsets of the derived substrings, nodes deriving the empty string collapsed to a single _nothing child.",
  "every LL(1) grammar, sentence and source","all grammars and all sentences",
  [PA+":Parse",TG+":FromGrammar"])
p("C61","Order of rules and alternatives, and row numbers, do not matter",
  "Renumbering the rows of a table (start row kept) renumbers the trees and changes nothing else. Rearranging the rules after the first, and the alternatives inside rules, of a FIRST-disjoint grammar with distinct heads gives (when FromGrammar accepts both) parsers with the same outcome on every source: the same tree read through the returned names, the same error, or both run forever; for LL(1) grammars without nullable gaps no arrangement is rejected.",
  "every grammar, rearrangement, map iteration order and source","all permutations times all inputs",
  [TG+":FromGrammar",PA+":Parse"])
p("C62","ToAST sorts the caller's IgnoreNodeTypes slice, and only that",
  "A ToAST call returns the conversion for the types listed in IgnoreNodeTypes, leaves exactly that slice's elements in ascending order and changes no other memory (nothing at all if the list was ascending). In every sequence of ToAST calls whose IgnoreNodeTypes slices are pairwise identical or disjoint, each call returns what it would return alone; with overlapping slices of one array an earlier call can change a later result.",
  "every bindings value, tree, text, memory content and sequence of calls","aliasing and call histories are unbounded; tests use one fresh one-element slice",
  [FC+":ToAST",FC+":BNFCSTtoASTBindings"])
p("C63","An io.Reader is parsed like the text it delivers, however it is chunked",
  "If a reader delivers a text in pieces of any sizes (also empty ones, last bytes with or before EOF) Parse ends exactly as on that text as a string, whatever buffer growth io.ReadAll uses; if the reader fails, Parse returns the reader's error; with an unusable table the reader is not touched; on a reader that never ends Parse never returns; on a reader that some time reports more bytes than it was asked for Parse panics; a second Parse on an exhausted reader sees the empty text.",
  "every table, every reader behaviour, every cut into chunks","chunk boundaries and reader behaviours are unbounded",
  [PA+":readSource",PA+":Parse"])
p("C64","FromGrammar prints only when it reports a conflict, and then the first clashing cell",
  "For every grammar FromGrammar writes to standard output iff it returns the error about multiple parser op sets, and then exactly one cell in Go's format: the cell of the first clash (first rule, first alternative, smallest byte), i.e. the operations of the earlier alternatives that begin with that byte.",
  "every grammar and map iteration order (for what the printed cell holds: no terminal beginning with NUL; C74 states it for every grammar)","all grammars",
  [TG+":makeTableRow",TG+":FromGrammar"])
p("C65","A running parser's memory is linear in the source and its integers stay in range",
  "For every table without left recursion, and for the table of every LL(1) grammar, there is a constant M such that at every moment of every run the stacks with all nodes built hold at most M*(len(src)+1) items. For every NUL-free table all offsets and positions stay within the source length and all child counts within a bound fixed by the table.",
  "every table (no literal beginning with NUL for the memory bound), naming, source and moment of the run","all intermediate states of all runs",
  [PA+":realParser.parse",PA+":processFunction"])
p("C66","The repository's own content comparison passes only for contents of which one begins the other",
  "ReaderContentMustBeEqual on two in-memory or file readers always terminates with a verdict. Equal contents always pass. If it passes, one content is a prefix of the other and both occupy equally many 4096-byte blocks; contents of equal length pass only if equal. It can pass for different contents: a content and the same content followed by NUL bytes within its first block, and, from the second block on, a content followed by the bytes left in the buffer from the previous block.",
  "every pair of byte contents of any length","all contents of all lengths; tests use the helper and so cannot judge it",
  ["test/testcommon/testcommon.go:ReaderContentMustBeEqual"])
p("C67","Parsers share the caller's maps, and calls never disturb each other through them",
  "A parser holds the table and names maps it was given, not copies. In a program that keeps several parsers over (partly) shared tables, rows, operation slices and names maps and edits them between calls: a Parse call changes no table, row or operation and no names map but its own parser's, where it can only set the names of -1 and -2; every Parse call ends as it would on a new parser over the same maps if no other Parse call had ever been made, only the edits before it; the same for hanging; the memory at the end is what the edits alone would have made of it but for the names of -1 and -2; an edit to anything the parser cannot reach does not matter; an edit to something it can reach is visible to it (and to every parser sharing that row) at the next call. The names map handed back is the parser's own.",
  "every program: all memories, all histories of edits and calls over any number of parsers and any sharing","unbounded histories and aliasing patterns",
  [PA+":NewLL1Parser",PA+":ll1parser_t.Parse",PA+":realParser.processEOS"])
p("C68","Rules nothing refers to change neither the language nor the trees, but can make a grammar rejected",
  "Appending rules with new heads that no old rule refers to changes neither the language nor the derivation trees. If the larger grammar is LL(1), without nullable gaps, FromGrammar accepts both grammars and the two parsers return the same tree for the same text and errors for the same texts. An unused rule can however make FromGrammar report a conflict for a grammar that is accepted without it.",
  "every grammar, every list of unused rules, every NUL-free text, every map iteration order","all grammars, all texts",
  [TG+":FromGrammar",PA+":ll1parser_t.Parse"])
p("C69","The operation lists in a generated table share no memory",
  "Building the table with slices, append and shared arrays gives exactly the table computed with values, for every way the runtime may choose capacities and whatever is in memory; no two cells of the returned table (of one row or of different rows) lie in the same array, so a caller who overwrites elements of one cell in place, or appends to it, changes no other cell; memory from before the call is unchanged.",
  "every grammar, map iteration order, capacity policy of append and prior memory","capacity growth and aliasing patterns are unbounded and invisible to tests that only read",
  [TG+":FromGrammar",TG+":makeTableRow"])
p("C70","Trees returned by Parse share no memory with the parser's stacks or each other",
  "With the parser's two stacks in arrays that append grows and later pushes overwrite, Parse ends exactly as with stacks as values, for every capacity policy, and the returned tree in memory is that tree. After any number of further calls by any parsers every returned tree still is what its call returned. Overwriting an element of a slice handed out by Childs() changes that tree at that one position and no other returned tree.",
  "every table, source, capacity policy, prior memory, history of calls, returned tree, path and child index","all histories and all aliasing patterns",
  [PA+":ll1parserOpStack",PA+":ll1parserProdStack",PA+":processFunction",CST+":NewNode",CST+":Childs"])
p("C71","Exactly when concurrent Parse calls on one parser race",
  "Among goroutines calling Parse on one parser with a non-nil names map, two can at some moment of some schedule both be about to access the shared map, one of them to write it, iff one of the calls succeeds (made alone) and another one succeeds too or fails with a message that names a rule. In particular calls that all fail never race.",
  "every table, names map, number of goroutines, list of sources and schedule","all schedules; the race detector sees only the schedules that happen",
  [PA+":processEOS",PA+":processTableNonTerminal",PA+":ll1parser_t.Parse"])
p("C72","How deep Walk recurses",
  "At no time are more calls of Walk active than there are nodes on the longest way down the tree, and exactly that many when the visitor never returns nil. On trees returned by the parser of an LL(1) grammar that is at most linear in the length of the source, and it really is: with S ::= \"a\" S | \"\" walking the tree of n letters recurses n+2 deep.",
  "every visitor, visitor state and tree; every LL(1) grammar and source; every n","all trees and visitors, and trees of unbounded height",
  [CST+":Walk"])
p("C73","Walk on any nodes: shared, cyclic, nil",
  "Node and Visitor are interfaces. On nodes whose children are fixed, with a visitor that never returns nil, Walk returns iff every way down from the root ends and none ends in nil, and then it has visited the node at the end of every way down, in order (a shared node once per way to it); on a nil entry it panics; if a way leads back to a node it has passed, it exhausts every stack. With a visitor that returns nil on nodes it has already seen, Walk returns on every finite graph, cycles included, and has gone through each reachable node exactly once.",
  "every implementation of Node and Visitor with fixed children, every graph, memory and stack size","all graphs and implementations, including infinite unfoldings",
  [CST+":Walk",CST+":Node",CST+":Visitor"])
p("C74","Tables of every grammar, also with terminals that begin with NUL",
  "FromGrammar represents 'can be empty' by the byte 0, so it reads a terminal that begins with a NUL byte as one that can be empty and has nothing after it. With FIRST, FOLLOW and nullability read that way, and no condition on the grammar: the cells of every generated table are exactly the predicted ones, every reported conflict is a clash, a well-formed grammar is rejected iff it has a clash, and a rejected grammar prints the first clashing cell. Without such terminals this reading is the textbook's. An alternative that begins with such a terminal is never predicted and acts as an empty alternative; a generated parser accepts a source that is empty or begins with NUL iff the first rule reads as nullable, and then returns the single empty node. Such a grammar can be LL(1) and still make the parser hang (S ::= A S | \"b\", A ::= \"\\0a\").",
  "every grammar whatever bytes its terminals hold, every map iteration order, every source","all grammars and all terminals, including ones no test grammar contains",
  [TG+":FromGrammar",TG+":findFirsts",TG+":makeTableRow",PA+":Parse"])
p("C75","Symbols of other types in a grammar (nil, pointers, foreign types)",
  "bnf.Symbol is an interface. FromGrammar treats a symbol that is none of the package's three types like a reference to an undefined non-terminal: it returns a table exactly when it would with such references in place of these symbols, and the same table; otherwise it ends with the same error or panic, except that where it would report the undefined non-terminal it reports the type of one such symbol, as an error or as a panic. It always ends. If it succeeds, what stands before such a symbol in its alternative derives nothing, so the symbol can never be parsed. All three outcomes occur.",
  "every grammar with symbols of any types, every map iteration order (that the symbol can never be parsed: no terminal beginning with NUL)","all grammars and all foreign implementations of an interface",
  [TG+":FromGrammar",TG+":sequenceFirsts",TG+":symbolFirsts",TG+":makeTableRow",AST+":Symbol"])
p("C76","FromGrammar's complaints are true of the grammar",
  "Whatever error FromGrammar returns for whatever grammar, it is true of that grammar: the non-terminal named in \"no rules defined for non terminal <X>\" is used in some alternative and heads no rule; \"empty string is not a single sequence symbol\" means some alternative has the empty-string symbol beside others; \"terminal with empty string\" that some alternative contains an empty terminal; \"empty sequencese\" that some alternative has no symbols; \"multiple parser op sets\" that some rule has a clash; \"ruleIndex exceeding grammar rules\" is never returned. A panic \"index out of range\" means there are no rules or some terminal is empty, a panic \"unreachable\" that the empty-string symbol stands beside others. A grammar with an alternative without symbols is never accepted.",
  "every grammar (well-formed or not), every map iteration order","The error is decided inside fixed-point iterations over arbitrary grammars; tests see a few malformed grammars, not that no other grammar is blamed wrongly.",
  [TG+":FromGrammar",TG+":sequenceFirsts",TG+":symbolFirsts",TG+":ruleFollowsInSequence",TG+":makeTableRow"])
p("C77","The JSON example with an arbitrary grammar file",
  "Whatever the grammar file and the JSON file hold: if the grammar file (up to its first NUL byte) is not the text of a grammar, the JSON example exits with 1 and says so on standard error; if it is the text of a grammar FromGrammar rejects, the example exits with 1, the message names a reason that is true of that grammar (empty string beside other symbols; a used non-terminal, by name, that heads no rule; a clash), and standard output holds exactly the cell FromGrammar prints for a clash and nothing otherwise; it panics there only for an empty-string symbol beside other symbols. If FromGrammar accepts the grammar, the example ends iff the parser for that grammar returns on the JSON file; it reports the parser's error and exits with 1, or exits with 0 after one line per node of type 6 not below a node of type above 10, in the order of the tree, with two blanks per enclosing node of type 9 or 10 and the text of Childs()[0].Childs()[1], or panics, the last exactly when the tree has a node of type 6, not below a node of type above 10, without Childs()[0].Childs()[1]; before such a panic standard output holds exactly the header lines and the key lines of everything before the first such node, and a panic in FromGrammar comes with nothing printed.",
  "every grammar file, every JSON file, both map iteration orders","The example is run by hand on one grammar; these are statements about the whole pipeline (parse the grammar file, ToAST, FromGrammar, parse, walk) for every pair of files.",
  ["examples/json/main.go:main","examples/json/main.go:fatalError","examples/json/main.go:Visit",TG+":FromGrammar"])
p("C78","ToAST does a linear amount of work",
  "ToAST calls Visit at most 3k+6 times per node of the tree, where k is the number of SymbolTerminalTypes (12 times per node for the BNF bindings), whether it succeeds, fails or panics, and never has more than six Walk calls more on the stack than the tree is high; so for a tree obtained by parsing a grammar text with the BNF parser both are linear in the length of the text",
  "all bindings, trees (of any shape) and texts; for the last part all grammar texts accepted by the BNF parser","the bound is over all trees; nested traversals (rule, expression, sequence, symbol, terminal, escape) could multiply, and only for particular shapes",
  [FC+":lrTraverse",FC+":parseSymbol",FC+":ToAST",CST+":Walk"])
p("C79","Exactly when Parse never returns, and that only left recursion can be the reason",
  "Parse never returns on a source exactly when, starting with non-terminal 0 at the beginning of the source, the table lets it enter one non-terminal after another for ever, each from within the cell of the previous one after the operations before it have consumed their part of the source. If no literal of the table begins with a NUL byte this happens exactly when some non-terminal that is entered at some offset leads back to itself at that same offset; if no literal contains NUL, the cause lies in the bytes up to that offset: Parse hangs on every source with the same bytes up to there. For a table made by FromGrammar (no terminal beginning with NUL) a hang is always due to a left-recursive rule, direct, indirect or behind symbols that can be empty, which the first rule refers to directly or not; and if an accepted grammar has no left-recursive rule, then, whether it is LL(1) or not, Parse returns on every source, within a number of loop iterations at most a constant times the length of the source, with memory and a tree of at most such a size.",
  "all tables with an entry row and no reserved non-terminal, all grammars FromGrammar accepts, all sources","non-termination cannot be observed by a test at all, and the criterion quantifies over every table and source; the linear bound over every length",
  [PA+":Parser.Parse",PA+":Parser.parse",PA+":parseProcess.processTableNonTerminal",TG+":FromGrammar"])
p("C80","Operations of other types in a table (nil, embedding structs, pointers)",
  "A caller can put into a parsing table operations that are not values of the package's own types: nil, a struct of his own embedding a ParserOp, a pointer obtained by reflection. Parse never does anything with such an operation except panic when it is reached: a call either panics for that reason, or it behaves (same result, or no return) exactly as it would with arbitrary other operations in their places. Such a panic names the cause: a nil dereference means the table holds nil or a struct around nil, and `can't cast ... op to it's type` that it holds a foreign operation of that kind. On tables without such operations nothing changes.",
  "all tables with operations of any type, all sources, any replacement of the unknown operations","unit tests can show one panic; that no returned result depends on an unknown operation quantifies over all tables, sources and replacements",
  [PA+":ParserOp",PA+":Parser.parse",PA+":Parser.Parse"])
p("C81","Writing \"ab\" or \"a\" \"b\" makes no difference",
  "Take any grammar (LL(1) or not, well-formed or not) and cut any of its terminals, anywhere, into non-empty pieces. FromGrammar ends the same way on both grammars: the same error, the same panic, or tables with the same rows, keys and names whose cells differ only in the cut terminals. The two parsers (and in general the parsers of any two such tables) treat every source alike: both return or both never return; they return the same error with the same message, or trees that differ only in that some literal leaves are cut into consecutive pieces at the same place. The two grammars have the same language.",
  "all grammars, all ways of cutting terminals, all sources, all map iteration orders","a metamorphic property over pairs of arbitrary grammars and arbitrary sources, including sources on which Parse never returns",
  [TG+":FromGrammar",TG+":tableGenerator.makeTableRow",PA+":Parser.Parse",PA+":parseProcess.processTerminal"])
p("C82","FromGrammar takes cubic time at most, and that long on some grammars",
  "Whatever the grammar and the outcome (table, error or panic), all loops of FromGrammar together make at most 1031 * (rules+1)^2 * (size+1) iterations, where size counts rules, alternatives and symbols. The order is reached: for every n there is an accepted grammar of n+2 rules with one symbol each (rule 0 refers to the last rule, every rule to the one before it) for which they make at least (n+1)^3. No cell of the result holds more operations than its rule has symbols.",
  "every grammar, every map iteration order","a test measures single grammars; the bound is over all grammars and the lower bound over an infinite family",
  [TG+":FromGrammar",TG+":findFirsts",TG+":findFollows",TG+":makeTableRow"])
p("C83","Exactly when concurrent ToAST calls sharing one IgnoreNodeTypes slice race",
  "Among goroutines calling ToAST with bindings whose IgnoreNodeTypes is the same slice (ToAST sorts it in place, although its receiver is a value), two can at some moment of some schedule be about to access the same element with one of them writing if and only if there are at least two calls and the list is not in ascending order. If it is in ascending order then under every schedule the slice never changes, no data race occurs, every call that returns has returned what it returns alone, and every call returns after finitely many of its own steps. Otherwise the race does harm: for a list of two types a call can return an error although alone it succeeds, and for a list of three types an entry can be lost for good, so that later calls fail as well.",
  "every list, number of calls, bindings, trees, texts and schedules of single-element reads and writes; every sort.Sort that sorts, and writes nothing when the list is in order (proved of Go's insertion sort, used for up to 12 elements)","The race detector sees one schedule; freedom from races and the equality with the sequential result quantify over all schedules and lists.",
  [FC+":ToAST",FC+":lrTraverse",FC+":BNFCSTtoASTBindings.IgnoreNodeTypes",CST+":Walk"])
p("C84","ToAST on any nodes: shared, cyclic, nil, with any positions",
  "For every implementation of cst.Node whose methods are pure: ToAST's outcome depends only on what the ways down from the root show (type, position and end of every node, where nil stands), so it cannot see whether nodes are shared; on trees made by NewNode it is the ToAST of the other properties as soon as the stack holds six more calls of Walk than the tree is high; a larger stack never changes an outcome. It panics on a nil node only if some way down ends at nil, and out of range only if some way down ends at a node whose span is not within the text; it overflows the stack only if there are arbitrarily long ways down. If no way is endless, none ends at nil and all spans lie in the text, it returns a grammar or an error, the one for the tree the nodes unfold to. If it returns a grammar, then no way that avoids passing through rules and ignored nodes ends at nil or is longer than the stack; a cycle of such ways keeps it from ever returning a grammar, and overflows every stack if no such way meets a nil or a rule.",
  "every type of nodes with pure methods (any graph, finite or infinite), every root including nil, text, bindings and stack size","The interface admits infinitely many node graphs, including infinite ones; tests only build small trees.",
  [FC+":ToAST",FC+":lrTraverse",FC+":flexVisitor.Visit",CST+":Walk",CST+":Node"])
p("C85","Exactly which grammars FromGrammar accepts, well-formed or not",
  "FromGrammar succeeds on a grammar iff: there is at least one rule; no alternative is without symbols; wherever FIRST of an alternative looks (its first symbol, and on past every non-terminal that reads as nullable) there is no terminal with empty text, no undefined name, and no \"\" beside other symbols; to the right of every defined non-terminal there is no terminal with empty text and no undefined name; an alternative that can begin with some byte holds no \"\" and no undefined name; and no rule has a clash. If all but the last hold, it reports a clash iff there is one; if one of the others fails it returns an error or panics. Every well-formed grammar meets the others. Ill-formed symbols of an accepted grammar stand only where no byte leads (undefined names, \"\") or behind the first symbols (empty terminals). So for every NUL-free text the whole way (BNF parser, ToAST, FromGrammar) succeeds iff the text writes such a grammar.",
  "every grammar (well-formed or not) and every iteration order of the rule map","Both directions range over all grammars; which symbols are looked at depends on fix points over the whole grammar.",
  [TG+":FromGrammar",TG+":tableGenerator.sequenceFirsts",TG+":tableGenerator.symbolFirsts",TG+":tableGenerator.makeTableRow"])
p("C86","What a generated parser does, for every grammar that is accepted",
  "For every grammar FromGrammar accepts (alternatives may begin alike, names may be undefined, terminals may hold NUL bytes or be empty) and every source, the generated parser does exactly what this reading of the grammar prescribes: a rule used where the next byte is b stands for ALL its alternatives that can begin with b, concatenated in the order written; if there is none, for nothing, provided some alternative is nullable and b may come after the rule; otherwise the rule fails there. Parse returns the tree t iff the first rule read that way matches the text up to its end (or a NUL byte) with t; it returns the error e iff the reading fails with e; it never returns iff the reading neither matches nor fails. Every rule node of a returned tree shows, child by child, all the rule stands for there.",
  "every grammar accepted by FromGrammar, every iteration order, every name table, every source and text, every tree and error","All accepted grammars times all texts, including those on which the parser never returns.",
  [TG+":FromGrammar",TG+":tableGenerator.makeTableRow",PA+":Parser.Parse",PA+":Parser.parse"])
p("C87","Grammars returned by ToAST share no memory",
  "With the slices of the grammar (Rules, Sequences, Symbols) in arrays that append grows and writes into, ToAST ends exactly as with slices as values, for every capacity policy and prior memory; the returned grammar in memory is that grammar, and no array that existed before is changed, also when the call fails or panics. After any number of further calls every returned grammar still is what its call returned. Overwriting a symbol, an alternative or a rule of a returned grammar changes exactly that place of that grammar and no other returned grammar; appending to any of its slices (without storing the result) changes no returned grammar.",
  "every capacity policy of append, prior memory, history of calls with any bindings, trees and texts, every returned grammar and position in it","Aliasing through spare capacity shows only for particular growth policies and histories; the claim is for all of them.",
  [FC+":BNFCSTtoASTBindings.ToAST",FC+":BNFCSTtoASTBindings.parseSequence",FC+":BNFCSTtoASTBindings.parseSubstitution",FC+":BNFCSTtoASTBindings.parseRule"])
p("C88","What a table can do on some source can be read off the table",
  "Say that a row can be wanted before a byte b if it is row 0, or stands in the cell that a row which can be wanted before some byte has for that byte, behind operations that can lead from that byte to b (a non-empty literal leads from its first byte to any byte, an empty literal and no operations from a byte to itself, a non-terminal where its cell leads). Then some source makes Parse hang iff some row that can be wanted before some byte comes back to itself before that byte, by way of cells for that byte, each asking for the next row behind operations that read nothing (or, at the end of the input, nothing but NUL bytes); Parse returns on every source iff there is no such row. Some source is accepted iff row 0 can lead to the end of the input. Cells that cannot be wanted do not matter: two tables that have the same cells and rows where the first can come to give the same outcome on every source.",
  "all tables with an entry row and no nil operation, all sources","that no source hangs (or that none is accepted, or that a cell is never used) is a statement about infinitely many sources, and hanging cannot be observed",
  [PA+":Parser.Parse",PA+":Parser.parse",PA+":parseProcess.processTableNonTerminal"])
p("C89","Printing and comparing grammars with symbols of any type",
  "For grammars in which symbols may be nil, pointers or of a caller's own types: String returns iff String of every symbol in it returns, and then its text is one line per rule made of the head, ::= and the texts of the symbols with | between alternatives, separated by single blanks; otherwise it panics with the panic of the first symbol, in the order of the text, whose String panics (a nil symbol does). Values that print like the package's symbols, such as pointers to them, give the text of the grammar they stand for, so parsing that text and ToAST give that grammar with the package's own symbols. The comparison of examples/parseownsyntax goes through both grammars in lockstep, lengths and heads first, and the first difference decides: false, a panic (a Type method panics, or a value of a type of its own calls itself a terminal or non-terminal), or the end of the program for an unknown type; it says equal exactly for grammars that have the same heads, shapes and own symbols, place by place, values that call themselves the empty string being equal to each other; a grammar with a nil symbol is equal to none, and reaching it panics; the order of the two grammars does not matter except for which panic it is.",
  "all grammars with symbols of any types (whose methods do the same on every call)","All grammars and all foreign implementations of an interface; which difference comes first depends on both grammars.",
  [AST+":Grammar.String",AST+":Rule.String",AST+":Symbol","examples/parseownsyntax/main.go:isSymbolsEqual","examples/parseownsyntax/main.go:isGrammarsEqual"])
p("C90","Starting at another rule",
  "Take a grammar with distinct heads and move one of its rules to the front (the others in any order). The language becomes what that rule derives. The LL(1) condition, the gap condition and well-formedness stay, so for an LL(1) grammar without nullable gaps FromGrammar accepts the new grammar and its parser returns a tree for exactly the NUL-free texts the rule derives and an error for the others. Parsing a part gives the part of the parse: for every node of a tree returned for the whole text, the parser that starts at the node's rule, given the text the node covers, returns the tree below the node - same names, and offsets counted from the node's own. A grammar that is only accepted, not LL(1), stays accepted with another rule in front if no rule has two alternatives for the empty string; without that condition it may become a conflict.",
  "all grammars with distinct heads, all rules, all arrangements of the others, all texts and nodes of parse trees","All grammars, all choices of the start rule and all subtrees of all parses; the two tables are generated separately and number their rules differently.",
  [TG+":FromGrammar",PA+":Parse"])
p("C91","What ToAST's errors say is true, and no fault of a tree goes unnoticed",
  "For all bindings, trees and texts: if ToAST returns an error, it is about the first of the topmost rule nodes that has a fault, and its text names a fault that node really has: no head node, no tail node, a symbol that holds none of the terminal types nor the non-terminal type, an escape without an escape-character node, or one whose character is not in EscapeMapping - quoting the source text of the rule or symbol, or the escape character. For a tree whose nodes lie in the text, ToAST returns a grammar exactly if no topmost rule node has a fault and an error exactly if one has. Different errors have different texts.",
  "all bindings, all trees, all texts","All trees and bindings, not only those the BNF parser returns; the first fault in walk order decides.",
  [FC+":BNFCSTtoASTBindings.ToAST",FC+":BNFCSTtoASTBindings.parseRule",FC+":BNFCSTtoASTBindings.parseSymbol",FC+":BNFCSTtoASTBindings.parseEscape"])
p("C92","No byte but NUL is special",
  "Exchange bytes (any one-to-one exchange of the 256 byte values that leaves NUL alone) in all terminals of a grammar. The language becomes the exchanged language; FromGrammar accepts both grammars or neither, and reports a conflict for both or neither if nothing else is wrong with the grammar; the generated table is the exchanged table; and on an exchanged text the new parser returns exactly the tree and names the old one returns on the text, or the same error about the exchanged bytes, or runs forever if the old one does. For tables written by hand the same holds in lockstep, except that the built-in non-terminal -2 fixes LF and CR. NUL really is special.",
  "all exchanges of bytes fixing NUL, all grammars, all texts; all tables","All 255! exchanges, all grammars and texts.",
  [TG+":FromGrammar",TG+":terminalFirsts",PA+":Parse",PA+":processBuiltinNonTerminal"])
p("C93","Exactly which sentences, and which grammars, the next-symbol FOLLOW loses",
  "For an LL(1) grammar FromGrammar accepts, a sentence is accepted by the generated parser iff in its derivation tree every rule that derives nothing (and does not stand below another rule deriving nothing) has behind it a byte that may follow the rule by the next-symbol rule; then the returned tree depicts the derivation. A rejected sentence is rejected with \"no rules for <byte> and non terminal op <rule>\", naming such a rule and byte. A reduced LL(1) grammar has all its sentences accepted iff this holds wherever a rule can have to vanish inside something non-empty: with a byte that can begin what comes after it in an alternative, or, if something comes before it and all after it can vanish, with a textbook FOLLOW byte of the enclosing rule. Then the parser decides the language, also for grammars with nullable gaps.",
  "all accepted LL(1) grammars without NUL in terminals, all their sentences, all source kinds","Infinitely many grammars and sentences; necessity needs a sentence constructed for every lost byte.",
  [TG+":findFollows",TG+":ruleFollowsInSequence",TG+":makeTableRow",PA+":processTableNonTerminal"])
p("C94","What the repository's test grammars and test table accept",
  "The parser generated from the test grammar LinearMultiRule accepts, of all sources without NUL bytes, exactly A::=C; the one from Or exactly \"B^, \"C^ and \"^; the one from ResolvedLRecursive exactly _ followed by any number of B's; the hand-written table of the first parser test exactly \"B^ and \"C^ followed by a line feed. Each accepted source gives one explicitly given tree and every other source an error. These are the sentences of the grammars. LRecursive, which describes the same language as ResolvedLRecursive, is not rejected by FromGrammar, but its parser accepts nothing: it returns an error on every source.",
  "every source (of every kind), every number of B's, every map iteration order","the repository's tests try five, two and three sources; that no other source is accepted, and that arbitrarily long ones are, is about infinitely many inputs",
  [TG+":FromGrammar",PA+":Parse","test/testgrammars/testgrammars.go:LinearMultiRule","test/testgrammars/testgrammars.go:LRecursive","test/parser/parser_test.go:TestCustomParserCanParse"])
p("C95","Parsing a []byte or *bytes.Buffer that is written to while Parse runs",
  "Parse does not copy a []byte or the contents of a *bytes.Buffer: it looks at the caller's bytes one at a time while it runs. If each byte is right when it is looked at, the call ends as on the finished text, iteration for iteration; in particular if a writer stays ahead of the reads. Whatever is written, the call never panics, a returned tree is derived from the bytes seen at the time of each look, is tiled and lies within the slice, and an error names a place where the byte seen did not fit. The text itself need never have stood in the slice, and a message can contradict itself, because the byte it names is read again. For every table (no literal beginning with NUL) writing can make a call hang iff rows lead back to themselves by cells of whatever bytes without consuming anything; so a parser that returns on every fixed source can hang on a changing one. Otherwise (no literal containing NUL) the time is linear in the length of the slice: one constant bounds the iterations of all calls, whatever is written. Parsers of LL(1) grammars and of grammars without left-recursive rules always return, in linear time.",
  "every table or grammar, every history of the slice's contents between the reads","the interleavings of a writer with the reads are unbounded, and termination is about infinitely many reads",
  [PA+":Parse",PA+":readSource",PA+":processChar",PA+":processTableNonTerminal",TG+":FromGrammar"])
p("C96","Parsing an io.Reader that may do anything",
  "Read is arbitrary code holding a slice of Parse's buffer. Whatever chunks a reader delivers, if it writes only to the slice of the current call (using all of it as scratch space if it likes) and its counts are between minus the bytes read so far and the length of the slice, Parse ends exactly as on the text that is left after all additions and (for negative counts) retractions, with the parser's maps as they are after reading; if reading removed row 0 the error is the one about missing rules for row 0; a reader's own error is returned whatever was read. Calls of Parse on the same parser made from within Read do not matter. The slice handed to Read is never empty. Parse panics because of the reader exactly when the reader panics or a count is out of that range. With counts in 0..len(p) nothing the reader writes, now or later, to any slice it was ever handed, makes Parse panic; it can change bytes it delivered earlier, but not those from before the buffer was last enlarged: an error they cause is reported whatever happens.",
  "every reader (any state, any use of memory), every table and change of the maps, every growth policy of the buffer, every time of late writes","quantifies over arbitrary code behind an interface, its histories and its memory effects",
  [PA+":Parse",PA+":readSource"])
p("C97","Giving the end of an alternative a rule of its own; the repair for nullable gaps",
  "Replacing the end of an alternative by a non-terminal with a new name and adding a rule with that name for it, any number of times, changes neither the language of the grammar nor what its rules derive; the grammar stays LL(1), well formed, NUL-free and with distinct heads; its derivation trees are the old ones once the nodes for the added rules are taken out. Every grammar can be freed of nullable gaps this way. So every well-formed NUL-free LL(1) grammar with distinct heads, even one FromGrammar rejects or makes an incomplete parser for, has such a version that FromGrammar accepts in every map order and whose Parse accepts exactly the sentences of the original grammar, with a tree that depicts the derivation in the original grammar plus nodes for the added rules.",
  "every grammar, every number and place of edits, every text, every map iteration order","relates two infinite families of grammars, languages and parsers; the number of edits needed is unbounded",
  [TG+":FromGrammar",TG+":findFollows",PA+":Parse"])
p("C98","Editing a piece of a document changes its tree only there",
  "For the parser of an accepted NUL-free LL(1) grammar whose nullable rules have a cell for every byte that can follow them: take a node for a rule in the tree of one document and a node of the same type in the tree of the same or another document. The first document with the text of its node replaced by the text of the other node is accepted; if that text is not empty, the tree is the old tree with the other node (moved to its new place) in place of the first, nodes to the left unchanged, nodes to the right moved by the difference in length and nodes above grown by it. Two nodes of the same type that span the same text, anywhere, have the same tree below them up to position. An empty piece can make enclosing nodes collapse to a single _nothing.",
  "every such grammar, all pairs of accepted documents without NUL, all pairs of nodes of the same rule in their trees, every kind of source","quantifies over all pairs of documents and places in them of every grammar",
  [PA+":Parse",TG+":FromGrammar",PA+":processFunction"])
p("C99","The remedies for left recursion and for common beginnings keep the language",
  "Rewriting a left-recursive rule T ::= T a | b to T ::= b N, N ::= \"\" | a N (as the repository's test grammars do), and rewriting alternatives with a common beginning A ::= p x | p y to A ::= p N, N ::= x | y, any number of times and with new names N, changes neither the language nor what any old rule derives. If the outcome is LL(1) and well formed, FromGrammar accepts it (after the repair of C97 if it has nullable gaps) and Parse decides the language of the original grammar, although FromGrammar makes a hanging or a wrong parser from the original itself. ResolvedLRecursive is LRecursive rewritten this way.",
  "every grammar, every number and place of rewritings, every text, every map iteration order","relates infinite families of grammars, languages and parsers",
  [TG+":FromGrammar",PA+":Parse"])
p("C100","NewParserOpList makes a list of its own",
  "NewParserOpList(list...) returns a slice with exactly the given operations in their order, over an array nothing else refers to. Whatever the program does later with the slice it was made from, with other slices and with parsers, the new list stays as it was unless the program writes into it; and writing into it changes no other slice and no parser that does not hold it. So a table cell filled this way keeps its operations when the caller reuses the slice, while a cell filled with the caller's slice itself changes with each write into that slice, and with it what Parse accepts.",
  "every memory, every list, every later program of edits and Parse calls, every choice of the new array and its spare room","quantifies over all later programs and over aliasing; a test sees one program",
  [PA+":NewParserOpList",PA+":NewLL1Parser",PA+":Parse"])
p("C101","One ByteSet used by several goroutines",
  "Goroutines that call Add, Remove and the reading methods on one ByteSet variable, interleaved at each 64-bit load and store: a byte that was in and is removed by nobody is in at every moment and in every copy a reading method works on, and a byte that was out and is added by nobody never is. If only one goroutine changes bytes of a block of 64, that block always shows the effect of its finished calls, and so does every copy, for at least those finished before the copy was begun; if no two goroutines change the same block, nothing is lost. Two goroutines that change the same block can lose any call, and a copy taken meanwhile can show a set the variable never held. A data race on a block is possible exactly if one goroutine changes the block and another one changes it too or reads.",
  "every initial set, every number of goroutines and calls, every schedule of loads and stores","all interleavings of word accesses; a test sees a few",
  [BS+":Add",BS+":Remove",BS+":Contains",BS+":Bytes"])
p("C102","A parser hangs on some source or is linear on all; a hang fills memory",
  "For every table with a row 0 (generated or hand-written, with any literals, also with NUL bytes): either there is a source on which Parse never returns, or one constant bounds the number of loop iterations of all calls by a multiple of the length of the source plus one, and likewise the number of operations and nodes held in memory at any moment. So there is nothing in between, and a parser that always returns is linear. A call that does not return lets the operation stack grow above every bound, for good; so on each source Parse returns exactly if its memory is bounded. For generated tables (terminals not beginning with NUL) left recursion matters only in rules that the first rule refers to. Cells of the table that cannot be wanted on any source change no run, step by step.",
  "every table whose cells hold terminals and nonterminals, every source, every moment of every call","a bound for all sources of all lengths and behaviour of endless runs; a test sees finitely many finished ones",
  [PA+":Parse",PA+":parse",TG+":FromGrammar"])
p("C103","ToAST on nodes whose methods are code: lazy, caching, counting, panicking",
  "ToAST on implementations of cst.Node whose methods may change memory, panic or answer differently from call to call, with slices of children that may be overwritten: nodes that always answer like the nodes of some tree (or graph) are converted exactly like it, whatever their methods do to memory meanwhile, so nodes that build or cache their children when asked are as good as a finished tree. A panic out of a method comes out of ToAST unchanged, nothing is called after it, and ToAST invents none. ToAST calls methods only on the root and on nodes it has read from slices that Childs returned, and reads only entries within the length. The result depends on nothing but the answers.",
  "every implementation of the four methods with every memory, every root, bindings, text and stack size","any user code behind the interface; tests use the library's own nodes",
  [FC+":BNFCSTtoASTBindings.ToAST",FC+":flexVisitor.Visit",CST+":Walk"])
p("C104","An explicit step budget for generated parsers",
  "Let FromGrammar return a table for a grammar in which no rule that the first rule refers to comes back to itself before a byte is read (this holds for every LL(1) grammar, and for every grammar without left recursion, LL(1) or not, if no terminal begins with NUL; otherwise it is to be read with the generator's own FIRST). Give a reference cost 2, a literal of k bytes cost k + 2, an empty symbol cost 0. Then Parse on a source of n bytes ends within C * R * (n + 1) + 4 iterations of its loop, where R is the number of rules and C the cost of the dearest rule, or of the dearest alternative if no two alternatives of a rule can begin with the same byte. Iterations done plus operations on the stack never exceed C * R * (n + 1) + 3, and at most two nodes are made per iteration. For the parser of SelfGrammar() this is 494 (n + 1) + 4, for the JSON example 363 (n + 1) + 4. A generated parser that hangs on some source has a rule that comes back to itself on one next byte.",
  "every grammar FromGrammar accepts, every map order, every source and every moment of every call","a bound on all sources of all lengths for all grammars, with numbers that a test could only compare on samples",
  [PA+":Parse",PA+":parse",TG+":FromGrammar",SG+":SelfGrammar"])
p("C105","Grammars and bindings of a program behave as values",
  "SelfGrammar() and SelfCSTtoASTBindings() return the same grammar and the same bindings with every call, whatever the program has done to those it got before. A program that gets grammars from SelfGrammar, from ToAST and from composite literals and edits them in place - overwrites, appends or cuts off symbols, alternatives and rules, in any order, with any growth of slices - sees exactly what it would see if every grammar were a value of its own: an edit shows in the grammar edited, at the place edited, and in no other grammar. Likewise bindings: changing the slices, the escape mapping or the integers of one, or calling ToAST with it (which sorts a slice in place), does not show in any other.",
  "every program, that is every sequence of calls and edits, every memory it starts from, every choice of capacities","a test sees one sequence of edits; sharing shows only for the sequence that hits the shared array with room left in it",
  [SG+":SelfGrammar",FC+":SelfCSTtoASTBindings",FC+":ToAST"])
p("C106","Growing a grammar or a table keeps what was accepted",
  "Let a grammar grow: alternatives are added to its rules, at any place, and rules with new heads are added at its end. If the grown grammar is LL(1), every source the parser of the old grammar accepted is accepted by the parser of the new one and gives the same tree. If it has no nullable gap and no repeated head either, the new table contains the old one cell for cell, errors other than 'no rule' stay as they were, and no source is given up at an earlier offset. Conversely what is left after removing alternatives and rules is still LL(1), and FromGrammar does not start to reject it. For tables given by hand: adding cells to any table changes no tree, no panic, no endless parse and no error except the complaint that the table has nothing there.",
  "every pair of grammars (or tables) of which one extends the other, every source, every names map, every map iteration order","a regression test of the old documents covers a few of infinitely many; that no accepted document changes its meaning is a statement about all of them",
  [TG+":FromGrammar",PA+":Parser.Parse",PA+":NewParser"])
p("C107","Putting two grammars together by a new first rule",
  "Take two grammars that share no rule head, and a new head. The grammar `<new> ::= <a> | <b>` followed by the rules of both has exactly the sentences of either; it is LL(1) exactly if both are, no byte can begin both and not both can be empty; FromGrammar then accepts it, and its parser returns on every source one of the two parsers accepts the same tree with its rule numbers moved on below a new root (on the empty text the root has the nothing node as only child), and an error exactly where both give one. The grammar `<new> ::= <a> <b>` has exactly the concatenations as sentences; it is LL(1) exactly if both are and nothing that can begin a b can begin a rule of a that may be left out at the end of an a; then its parser returns on u followed by v the two trees, the second moved behind the first, below a new root, and an error exactly if the text cannot be cut that way.",
  "every two well-formed gap-free LL(1) grammars with distinct heads, every source, every map iteration order","reusing tested grammars as parts of larger ones is safe only if this holds for all grammars and all texts; tests see one composition",
  [TG+":FromGrammar",PA+":Parser.Parse",AST+":Grammar"])
p("C108","Printing a grammar whose symbols' String methods have effects",
  "Let the String methods of foreign symbols in a grammar be any code: they may answer differently at every call, panic, and change the grammar while it is being printed. Grammar.String ends and makes exactly one call of String for each symbol, in the order of the text: the number of rules is that at the start, and each rule, alternative and symbol is taken as it stands when its turn comes. If all calls return, the text is one line per rule made of the heads, ::= and the answers with | between alternatives; the first panic ends String with that panic and no later symbol is asked. Nothing else touches the world: it is as the last call made left it. If the methods leave the grammar alone, the symbols asked are exactly those of the grammar, each once; if they also always answer the same, String is that of C89 and changes nothing.",
  "every grammar in memory (also with shared slices), every behaviour of the foreign String methods on every state of the world","all grammars and arbitrary foreign code, including code that rewrites the grammar being printed",
  [AST+":Grammar.String",AST+":Rule.String",AST+":Symbol"])
p("C109","Writing out a rule that has only one alternative",
  "Replace every reference to a rule that has a single alternative (not the first rule, the only one with its head, not referring to itself) by that alternative. Every rule then derives exactly what it derived before; the grammar is LL(1) exactly if it was; its derivation trees are the old ones without the nodes of that rule. If the alternative does not contain the empty-string symbol and neither grammar has a nullable gap, then for a well-formed NUL-free LL(1) grammar with distinct heads FromGrammar accepts both, and on every source both parsers give an error, or one returns the picture of a derivation tree and the other that of the tree without the nodes of the rule. Both provisos are needed: writing a rule out can bring back a nullable gap, so that the new parser rejects a sentence, and writing out an empty rule can make FromGrammar panic.",
  "every grammar and rule with one alternative, every source, every map iteration order","a refactoring users make routinely; that it is safe, and exactly when it is not, is a statement about all grammars and all texts",
  [TG+":FromGrammar",PA+":Parser.Parse",AST+":Grammar"])
p("C110","Comparing grammars whose symbols' Type methods have effects",
  "isGrammarsEqual of examples/parseownsyntax, on grammars whose foreign symbols have Type methods that are code (they may change their answers, panic, or change the grammars being compared): the comparison goes place by place and reads every element when its turn comes; of two symbols the first is asked, then the second, and if the answers agree the first is asked again and that answer decides (and once more for the message if it is unknown); the first pair that does not come out equal ends the comparison. If the methods leave the grammars alone, the result true still means the same shape and heads, no nil, and that the package's own symbols are equal wherever two of them stand at the same place. Without foreign symbols the comparison decides equality, never panics and calls no one. With methods that always answer the same it is the comparison of C89. A symbol that changes its answers can be equal to a symbol that is not equal to it, and unequal to itself.",
  "every pair of grammars in memory (overlapping or not), every behaviour of the Type methods","methods of caller-defined types are arbitrary code; tests try a few",
  ["examples/parseownsyntax/main.go:isGrammarsEqual","examples/parseownsyntax/main.go:isSymbolsEqual",AST+":Symbol"])
p("C111","What the parser tests' reference files guard",
  "The parser test driver (updateTestsOnParser writes, performTestsOnParser compares, both with %v): a printed tree determines the tree and no printed tree begins another, so that the driver's comparison of trees is exact although ReaderContentMustBeEqual is not; a names map is printed in ascending order of numbers whatever the map's order, and determines the map if no name contains a blank or ']' (otherwise not). Writing the files touches only the files of the cases and succeeds exactly if every case parses. If the files were written with one parser and the driver is run with another, it passes exactly if every case that expects an error gets that message and every other case gives the very same tree, and names the comparison cannot tell apart (with plain names: the same names).",
  "every list of test cases with files of their own, every two parsers, every tree and names map","tests cannot judge the driver that judges them; trees and names are unbounded",
  ["test/parser/parser_test.go:updateTestsOnParser","test/parser/parser_test.go:performTestsOnParser","test/testcommon/testcommon.go:ReaderContentMustBeEqual"])
p("C112","What the table tests' reference files guard",
  "The tests of FromGrammar print the table with %#v and compare the text with a reference file: two tables with ASCII terminals are printed alike exactly if they have the same rows and cells, in whatever order the maps hold them, and no printed table begins another; so if the file holds the printed form of one table the test passes for exactly the same table, although ReaderContentMustBeEqual accepts some different contents. Every table FromGrammar returns for a grammar with ASCII terminals is such a table, so the tests of FromGrammar pass exactly if the generated table is the one of the file, whatever the order of Go's maps.",
  "every two tables whose terminals are ASCII, any order of the maps","tests cannot judge the comparison that judges them; tables are unbounded",
  ["test/bnftablegen/tablegen_test.go:TestOrGrammarToParsingTableResTable","test/testcommon/testcommon.go:ReaderContentMustBeEqual","pkg/parser/parser.go:ParserOp"])
with open("/verif/properties.jsonl","w") as f:
    for x in P: f.write(json.dumps(x,ensure_ascii=False)+"\n")
print(len(P))
