# Formal model of genelet/determined

The Lean project in `lean/` contains an executable model of the code in `/repo`
and theorems about it.  Layout:

* `Verif/Model/*.lean`  – the model, function by function; every definition cites
  the file and lines it models and states simplifications.
* `Verif/Spec/*.lean`   – small specifications (grammars, relations, arithmetic)
  in which the theorems are stated.
* `Verif/Lemmas/*.lean` – helper lemmas.
* `Verif/Props/*.lean`  – the property theorems, each beside a concrete example
  meeting its hypotheses.
* `Verif/Check/*.lean`  – values used by examples, test vectors of the repository.

`properties.jsonl` lists the properties, `MANIFEST.json` the theorems for each and
what is missing, `seeded/LOG.jsonl` the wrong programs the theorems were tried on.

## Trusted base

* Lean 4.33.0 kernel; axioms `propext`, `Classical.choice`, `Quot.sound` only; no
  `sorry`, no `native_decide`, no `bv_decide`, no own axioms.
* The translation from Go to the Lean model, done by hand.  The code was never run.
* The behaviour of external code.  None of it was on the machine.  What the model
  contains of it is **recalled from memory and was not confirmed** by reading or
  running it.  Where possible it is a parameter instead, so that the theorem holds
  for every behaviour of it.  The table says which is which.
* Goroutines interleave step by step.  Go promises this only for programs without data
  races, and `C123_violated` shows races in `utils/tree.go`; what weaker memory may do
  there is not covered by C10, C11, C93, C94, C109, C110 and C120-C122.
* Numbers called `n` or `fuel` bound the nesting of calls in functions that Go
  recursion does not bound; running out is the outcome `hang`, never a result.  Theorems are
  for every bound, and C45 and C66 say when a sufficient bound exists.

Conventions: a Go map is an association list with distinct keys; its iteration order
is a permutation, given by the list order or by a parameter `ord`, over which the
theorems quantify.  `error` and `panic` are explicit outcomes.  A nil pointer, slice or
map is an explicit case where the code can see it.  Goroutines are state machines whose
steps interleave.

### External code

| Package | Recalled | Parameter |
|---------|----------|-----------|
| `encoding/json` | decoding of a fresh `reflect.StructOf` value, keys matched by folding (`Det.rawDecode`) | decoding into ordinary fields; into a whole struct; the text format (`Convert.Codec`) |
| `yaml.v3` | | `Convert.Codec` |
| hcl/v2 `hclsyntax` | lexer and parser of the subset that `Marshal` writes (`HclSyntax`); values of literals | variables, functions, other expressions (`eval`); parsing of objects in attributes (`HclS.Ext.parse`) |
| hcl/v2 `gohcl`, `hclwrite` | which documents are refused (`HclS.gohclDecode`); one line per attribute, in the order of the fields (`HclS.attrText`) | conversion of one value to one field (`Ext.leaf`) and back to text (`PExt.expr`); alignment (`PExt.pad`) |
| go-cty | `function.Call` with unknown, null and marked arguments, and types (`Model/Typed`); `TestConformance`, `ListVal`; `gocty` conversions; object values | NFC normalisation; `stdlib.Equal`; `convert.Convert`, `convert.UnifyUnsafe` (C126–C130 assume of them `Ext.Ok`, `Ext.Stable`, `Ext.Final` of `Spec/Typed`, C131–C133 assume `MConv.Ok` of `Spec/TypedMarks`) |
| `math/big` | exact value and accuracy of `Float` conversions and sums | |
| `net`, go-cidr v1.1.0 | masks, `Subnet`, `Host`, `NextSubnet`, `VerifyNoOverlap` | |
| `time` | strict RFC 3339 path of `time.Parse`, count of days | the general parser (`slow`) |
| `encoding/base64`, `net/url` | `StdEncoding`, `QueryEscape` | |
| `os`, `doublestar`, `crypto/*`, `x/crypto/ssh` | texts of `PathError` | all answers (`File.FS`, `glob`, `rel`, hashes, keys) |
| `google/uuid`, `go-uuid`, `x/crypto/bcrypt` | `Parse`, `String`, version and variant bits; cost and length checks (`Model/Ident`) | random bytes, SHA-1, the cipher |
| `path/filepath` (Unix), `homedir` | `Clean`, `Join`, `Base`, `Dir`, `IsAbs`, `Abs`; `Expand` | the home directory and the working directory |
| `sync` | `Mutex`; `Map` as documented (`Range` shows every key as it was at some moment) | |
| `reflect` | `StructOf`, `FieldByName`, `Set` with their panics | |
| `regexp` | the one pattern `(?s){[^}]+}` | all others (`Text.Engine`) |
| `strings`, `bytes`, `unicode/utf8` | `ReplaceAll`, `ContainsRune`, UTF-8 | |
| `x/text`, `compress/gzip` | | `Text.Charsets`, `gzip` |
| file system, `os.Args` | | `Convert` |

### What is modelled

| Code | Model | Left out |
|------|-------|----------|
| `utils/common.go` | `Model/Spec`; `Model/SpecArgs`: all calls of `NewStruct`; `Model/SpecHeap`: maps and structs with addresses, nil pointers | sharing of slices and of maps other than `map[string]interface{}` (a `[]*Struct` in a description is used as it is, too) |
| `utils/tree.go` | `Model/Tree` (one goroutine), `Model/TreeConc` (many, one node, with its slice), `Model/TreeMany` (many, whole trees, without `DeleteNode`), `Model/TreeAll` (many, whole trees, all of `AddNode`, `AddNodes`, `DeleteNode`, `GetNode`, `FindNode`, with the slices), `Model/TreeVars` (as `Model/TreeMany`, with items and `Variables`), `Model/TreeWatch` (as `Model/TreeAll`, with items and `Variables`), `Model/Call` (functions of `DefaultTreeFunctions`) | torn slice headers, weak memory |
| `utils/util.go` | `Model/Cty` (L168-280), `Model/HclStruct` (L104-166, expressions without functions), `Model/Call` (L15-166, with functions), `Model/Edge` (L196-224, limits of floats, infinities, NaN) | capsule types; the sign of zero |
| `utils/determined.pb.go` | as data types | protobuf plumbing |
| `det/*.go` | `Model/Det`; `Model/DetGraph`: specifications in memory, shared or in cycles; `Model/Clone` (memory of `clone`, also that of `dethcl/util.go`) | pointers to non-structs in `ref` |
| `dethcl/encoding.go`, `dethcl/marshal.go` L19-43 | `Model/HclPrint`, for generic data; `Model/HclHeap`: the same in memory, shared or in cycles, with the stack | sizes of stack frames |
| `dethcl/marshal.go` L19-430 (structs) | `Model/HclStructPrint`; `Model/Own`: types with their own `MarshalHCL`; `Model/OwnStruct`: such types inside of structs | methods of types that are not structs; non-nil embedded pointers, pointers to pointers, cyclic values |
| `dethcl/mapslice.go`, `dethcl/unmarshal.go` L26-87 | `Model/HclDecode`, generic targets; `Model/HclTree`, the same with the tree of variables; `Model/Target`: all targets that are not structs; `Model/HclAgain`: with the second parsing of lists and objects, for generic targets | in `Model/HclTree` and `Model/Target` expressions are not parsed a second time |
| `dethcl/util.go` L25-42 | `Model/HclStruct` (`tag2`), `Model/Tag` (with its panic, and `reflect.StructTag` as recalled) | white space that is not ASCII |
| `dethcl/unmarshal.go` L48-698 | `Model/HclStruct`, struct targets; `Model/OwnStruct`: with types that have `UnmarshalHCL`; `Model/HclBlocks`: the second parsing of blocks; `Model/HclStructMem`: nested specifications that decoding changes | see the headers of the files: methods get the parsed block, pointers to pointers, non-nil embedded pointers, state of `ref` after an error |
| `convert/convert.go`, `cmd/fmtconvert/main.go` | `Model/Convert` | |
| `internal/ipaddr/*.go` | `Model/IPAddr` | |
| `internal/lang/funcs/cidr.go` | `Model/Cidr`; `Model/CidrText`: numbers of cty and texts of results | |
| `internal/lang/funcs/collection.go` | `Model/Funcs`: alltrue, anytrue, coalesce, index, lookup, matchkeys, one, sum, transpose; `Model/Length`: length; `Model/Typed`: all functions with the types of arguments and results |  |
| `internal/lang/funcs/string.go`, `sensitive.go`, `redact.go` | `Model/Funcs`; `Model/Text`: replace | |
| `internal/lang/funcs/encoding.go` | `Model/Encoding`: base64, urlencode; `Model/Text`: text encodings, base64gzip | |
| `internal/lang/funcs/datetime.go` | `Model/Time`: timecmp; `Model/TimeAdd`: timeadd, timestamp; `Model/Duration`: `time.ParseDuration` as recalled | texts of errors |
| `internal/lang/funcs/number.go` | `Model/Number`: parseint, signum; `Model/Log`: log, pow | `math.Log` (any function within one unit in the last place) and `math.Pow` (any function) outside their special cases; the sign of zero |
| `internal/lang/funcs/filesystem.go` | `Model/Path`: the paths that are opened, basename, dirname, abspath, pathexpand; `Model/File`: file, filebase64, fileexists, fileset; `Model/Template`: templatefile for known values; `Model/TemplateArgs`: its null, unknown and marked arguments, for any evaluation of the template | which unknown values and marks the evaluation itself gives |
| `internal/lang/funcs/crypto.go` | `Model/File`: hashes of strings and files, uuidv5, rsadecrypt; `Model/Ident`: uuid, uuidv5 with `uuid.Parse`, bcrypt | a machine without random bytes |
| parameters, types and flags of all the functions in these files and in `datetime.go`, `number.go`, `string.go` | `Model/Scalars`: null, unknown and marked arguments; `Model/TemplateArgs`: those of `templatefile` | |
| `internal/lang/funcs/conversion.go` | `Model/Text`: errors of conversions; `Model/Typed`: MakeToFunc, TypeFunc |  |
| `internal/lang/functions.go` | `Model/Registry`; `Model/Exported`: the exported functions of package funcs | – (what the functions do is in the other models or external) |
| `internal/lang/marks/marks.go` | `Model/Marks` (`Has`, `Contains`) | `GoString` |
| `internal/lang/funcs/descriptions.go` | `Model/Describe` (numbers of parameters of stdlib, tryfunc and ctyyaml as recalled) | the texts |
| `internal/lang/types` | – (one constant) | |

## How the properties are stated and proved

| Id | Statement in terms of | Proof |
|----|-------|-------|
| C01-C04 | inductive relation `Denotes` between Go values and specifications | mutual induction; witnesses for lost entries |
| C05-C09 | edges, walks and stored items of a heap of nodes | invariant over all histories of operations |
| C10, C11 | steps of any number of threads | invariant over interleavings; witnesses |
| C92-C96 | paths in trees (`Spec/TreeMany`); any number of goroutines making any calls | invariant over interleavings; witnesses |
| C12-C16 | grammar of addresses (`Spec/IPText`) | equivalence of parser and grammar |
| C17-C19, C27 | intervals of natural numbers | induction over the list of sizes |
| C20-C26 | one small relation per function; the calendar counted day by day for C26 | induction over lists |
| C23, C24 | bit groups and characters (`Spec/Encoding`) | inverse functions |
| C30, C31 | `IsFloat`, nearest representable number | arithmetic on rationals |
| C33-C46 | fields, instances and templates of Go types; `encoding/json` a parameter | recursion on specifications; simulation between map orders |
| C47-C51, C69 | tokens and syntax trees of HCL text (`Spec/Hcl`, `Spec/HclText`) | printer against lexer and parser |
| C57-C68 | blocks of a body, fields of a struct type, `Holds`, `BlockAs`, `Entries` (`Spec/HclStruct`) | recursion on documents; simulation between map orders and states |
| C62 | documents, types and specifications that fit (`Fine`, `TypesOk`, `Spec/HclStructPanic`) | induction over the depth with an invariant of `ref` and the types |
| C71 | relation `Shows` between documents and structs (`Spec/HclStructDoc`) | recursion on documents |
| C72 | structs described by their fields (`Writable`, `Spec/HclStructPrint`); the text is parsed and decoded | lines of the text as items of the parser, then C71 |
| C73 | two runs that differ only in the iteration orders; `Val.small` (`Spec/HclStructPrint`): maps with at most one entry | induction over the nesting |
| C74 | structs described by their fields (`Tame`, `Spec/HclStructPrint`) | induction over the nesting |
| C75 | relation `Val.agrees` between values that differ in hidden fields (`Spec/HclStructPrint`) | induction over the nesting |
| C76 | digits of a base (`Spec/Number`) | equivalence of parser and grammar |
| C77 | sign of a rational number | case analysis |
| C78, C79 | instants of timestamps (`Spec/Time`); offset of the machine as a function of time | inverse of the count of days |
| C80 | relation `Den` between expressions and values (`Spec/Call`) | induction on expressions, soundness and completeness |
| C81 | relation `Gives` on results of Go functions (`Spec/Call`) | case analysis on the first error |
| C82 | entries of the map after the call, all iteration orders | induction on the built-in functions |
| C83 | data of a value (`TV.data`, `Spec/Call`) | evaluation of literals |
| C84–C87 | places in the file system, step by step (`Spec/Path`), without symbolic links | `Clean` computes a normal form of the steps |
| C88 | two runs with arguments that the operating system does not tell apart (`Alike`, `Spec/File`) | case analysis on the answers |
| C89–C91 | contents and states of files (`Holds`, `FS`), UTF-8 (`Spec/Utf8`), RFC 4648 (`Spec/Encoding`) | case analysis; induction on the matches |
| C97, C98 | writes through references in a memory of cells (`Independent`, `Spec/Clone`) | what is reachable from the copy |
| C99 | cutting a text at its occurrences (`Cut`, `Spec/Text`) | induction on the text |
| C100, C102 | two runs with different secrets | case analysis |
| C101 | characters (`Spec/Utf8`), RFC 4648 | inverse functions |
| C103 | what a value can turn out to be (`Becomes`, `Len`, `Spec/Length`) | case analysis |
| C104 | relation `Den` between templates and values (`Spec/Call`) | induction on expressions |
| C105 | syntax tree of the text of `MarshalHCL` (`Spec/Hcl`), `heredoc` (`Spec/Own`) | indented text has the same tokens |
| C106 | relation `Displays` between documents, specifications and structs (`Spec/HclStructIface`) | recursion on documents, with `ref` growing |
| C107 | structs that fit a specification (`Fits`, `Spec/HclStructIfacePrint`) | as C72, then C106 |
| C108 | the same text as the value of an attribute, decoded with C50's map decoder | case analysis |
| C109, C110 | places of items (`Clear`, `Reach`, `Stays`, `Was`, `Spec/TreeVars`) | invariants of all steps of all goroutines |
| C111 | `DisplaysOwn` (`Spec/OwnStruct`): C106 with arbitrary methods | recursion on documents |
| C112 | `FitsOwn` (`Spec/OwnStruct`): C107 with arbitrary methods | as C107, with the text of the methods from C105 |
| C113 | `GenericDec` (`Spec/HclStructGeneric`): a generic field is decoded by the modelled `decodeSlice` and `decodeMap` | from C106 and uniqueness of results |
| C114 | `FitsData`, `FitsOwnData` (with methods): data of C47 in generic fields, in any order of maps (`Reord`) | from C107 and C112, and the round trip of C47 |
| C115, C116 | `Ext.Le`, `PExt.Le`, `Methods.Le` (`Spec/HclStructFail`): other versions of the parts that give the same wherever the first do not fail | every function of the models is monotone in its parts and in its bound |
| C117 | `Within` (`Props/Marks`): a value is another one or inside of it | `Contains` is true exactly if some value within has the mark |
| C118 | `FileFn` (`Props/Registry`): the names of the functions of files and what makes them | lookups in the table for all arguments, and after `DefaultTreeFunctions` |
| C119 | `Ext.Le` (`Spec/DetFail`): another version of `encoding/json` that gives the same wherever the first does not fail | every handler of `Model/Det` is monotone in it |
| C120-C122 | `Spec/TreeAll`: ways through `Up`, running and beginning deletions, paths that last, ended calls; any number of goroutines making any calls, each access of the memory one step | invariant with the list of children that a half-done deletion stands for; termination measures |
| C123 | `Spec/TreeRace`: which memory each step reads and writes (proved to be complete), order by goroutine and by `Unlock`/`Lock`, races | lock invariant of C120; accesses under one lock are ordered |
| C124 | `Spec/TreeSeq`: the nodes of a state of `Model/TreeAll` as a heap of `Model/Tree`, histories of sequential calls | what the rest of a call will do, as a function of the heap, is kept by each of its steps |
| C125 | `Spec/TreeEff`: additions and removals, each made at once, and those of an execution in the order of the locks | the tree as it will be when those who hold locks are done; each step keeps it, except the first one after a lock, which makes the change |
| C126–C130 | `Spec/Typed`: when a type fits another, when a value is consistent, when a value can turn out to be another | for each function: the result has the announced type; loops stop at the first thing that is unknown, or all they have seen is known and stays |
| C131–C133 | `Spec/TypedMarks`: which parts carry a mark; when who must not see a mark cannot tell two values apart | `Call` puts all marks on the result of most functions; for the others, a result is marked or comes from parts that look the same; taking off marks commutes with every step |
| C134 | `Spec/Refs`: a document and the one in which references are replaced (`Inner`), without trees or evaluation | induction over the nesting of calls: the tree only grows, and what is stored in the nodes of the bodies around a block stays |
| C135 | `Spec/HclTree`: a document and the one in which references are replaced (`InnerG`), without trees or evaluation | induction over documents: the tree only grows, nothing is stored on the paths of blocks under the name of a block, and what is stored in the nodes of enclosing bodies stays |
| C136 | equality of the results with two trees, and with `Model/HclDecode`, which has no tree | induction over documents |
| C137, C138 | `GV.floats`: the data with every number as a floating point number; `Occurs`: parts of data (`Spec/HclNumbers`) | induction over data |
| C139 | two round trips | C47, and that the data which comes back fits its hypotheses again |
| C140, C141 | `Spec/TreeWatch`: places of items (`Open`, `Clear`), children and items of some moment of the call (`WasChild`, `Was`, `Reach`); each read of a cell one step | invariants of all steps; the first children stay in the cells of the array that the loop reads while none of them is deleted |
| C142 | `Spec/Cycle`: `untyped`, `distinct` say what a decoder of JSON or YAML gives; data is compared by its JSON value (`GV.json`) and by `Same` | data of one JSON value has everything in common that writing and reading HCL depend on (`keptJ`) |
| C143 | `Spec/Duration`: texts are sequences of numbers with units (`Part`, `renderParts`), their sum in nanoseconds is a rational number (`total`) | reading a number digit by digit (`leadingInt_eq`, `leadingFraction_eq`); one turn of the loop (`durationPart_eq`, `durationPart_sound`); error of rounding to 53 bits (`rd_error`) |
| C144 | `Spec/Tag`: words of a text (`Words`), tags in the conventional form (`Conventional`) | `strings.Fields` and `reflect.StructTag.Lookup` against these descriptions |
| C145 | struct types with one field (`OnePtr`); the text is parsed and decoded | C72 for the values that come back; the text itself and the failing evaluation for the others |
| C146 | relations between the target before and after (`Adds`, `Spec/Target`), on what an empty map or slice gets | case analysis, C50 |
| C147, C148 | Mathlib's real logarithm, the set of `float64` numbers as `k * 2 ^ e` (`Spec/Log`) | bounds of logarithms, propagation of relative errors |
| C149 | grammar of addresses and prefixes (`AddrText`, `PrefixText`, `Spec/Cidr`) | printer against grammar, C17-C19, C27 |
| C150 | forms of the text of a UUID, version and variant of RFC 4122 (`Spec/Ident`) | parser and printer against these forms |
| C151 | the cost that a hash says (`SaysCost`), integers of 64 bits | by cases |
| C152 | names of fields, grammar of specifications (`Spec/SpecGrammar`) | by cases, C02 |
| C153 | `Spec/Scalars`: the types of arguments and results as documented; `Spec/TypedMarks` | the flags of the parameters, by cases over the table of functions; `Call` of `Model/TypedMarks` |
| C154 | `Spec/Edge`: which numbers a format with limits has, as mantissa and exponent | rounding is on a grid of the last place; the limit lies half a place above the largest number and is a tie; two roundings keep the order |
| C155 | `Spec/TemplateArgs`: what the text of a template and variables give; `Spec/TypedMarks`: which marks a value carries, which values are the same but for what is marked | the checks of `Call` leave five cases; the marks of `vars` are put on the result in all but those of unknown type |
| C156 | `Spec/HclHeap`: members of maps and slices in memory, how deep they are nested, the values without addresses they stand for | induction over the calls the stack has room for, in both directions; simulation with `Model/HclPrint` |
| C157 | `Model/HclDecode`, which evaluates the syntax tree once; the text between two positions | positions of tokens; the parser reads a list up to its bracket and no further (`Lemmas/HclAgainLocal`); induction over the nesting |
| C158 | `Hcl.parseConfig`, which parses once; the text between two positions | as C157: the parser reads a block up to its brace, and what is before it as a file; induction over the nesting |
| C159 | `decode` on trees (`Model/Det`), how deep a document is nested (`Spec/DetGraph`) | two runs on different levels of a specification are compared loop by loop; every nested call has a smaller document |
| C160 | cycles of single fields (`Ring`), fields that may be left out (`MayMiss`) | induction over the number of nested calls |
| C161 | what the same call does with the specification and `ref` as they were (`Used`, `NamesOnce` in `Spec/HclStructAgain`) | two runs of `loopFields` are compared, one having the entries that the other makes; what calls leave behind is an invariant over sequences of calls |
| C162 | what `NewStruct` of `Model/Spec` does with the description written out as a tree (`tree`, `readS`, `NoCycle` in `Spec/SpecHeap`) | the run in memory is simulated by the run on trees; both directions of ending: no cycle gives a bound for the stack, and a result gives that there is no cycle |
| C163 | the structs reached from the result, read in another memory (`readS`) | new structs point to new structs or to structs of the description (`Fresh`), so memories that agree there are read alike |
| C164 | every call finds in memory the field map as it was made, perhaps with entries that decoding makes by itself (`Honest`) | what an entry says is what `loopFields` would have made, so a call that finds it and one that does not are equal (`decodeStruct_same`); a run leaves only such entries (`C164_left`) |
| C165 | names of classes in a specification at all levels (`NamesIn`); two registries that agree on them | simulation between the two runs: what `loopFields` registers, it registers in both, and the entries that it makes name nothing else (`decode_sim2`) |
| C166 | `BlockAs` (C57) from the registry of the caller | `ref` changes under names of types only; witnesses |
| C167 | `PairClass`: which class a pair of labels gets | a single first label; `C167_classes` for all; a witness |
| C168 | the tables of functions, of their parameters and of descriptions | the tables are compared as a whole by the kernel |
| C169 | all strings of a message (`Struct.All`), the names of a description (`SVal.Names`) | induction over the nesting; `C169_exact` by the grammar of C02; witnesses |
| C170 | Go names of the exported functions, `callName` | lookups in the table for all arguments |
| C171 | two calls with different targets | the values of fields are those of the document; a witness |
| C70 | outcomes of the command for all codecs | case analysis |

## Findings

Properties that the code does not have.  Each has a theorem with a witness; the
weaker statement that does hold is the `_partial` theorem beside it.

| Property | Witness | What happens |
|----------|---------|--------------|
| C03, C04 | `C03_entry_lost`, `C04_order_matters` | entries of a two-label map that share the first label replace one another, in map order |
| C06 | `C06_empty_tag_counterexample` | `GetNode("")` gives the receiver, not the child called `""` |
| C08 | `C08_incomplete` | `FindNode` does not go back when the first node with the first name lacks the others |
| C10 | `C10_duplicate_children` | two concurrent `AddNode` calls make two children of one name |
| C11 | `C11_missed_read` | a reader can miss a child while another one is deleted |
| C18, C19 | `C18_zero_prefix_fails`, `C18_after_mapped_fails`, `C19_host_wraps`, `C19_host_mapped`, `C19_negative_netnum` | subnets and hosts at the edges of the address range (resting on recalled go-cidr) |
| C22 | `C22_violated_matchkeys`, `C22_violated_sum`, `C22_violated_lookup` | `matchkeys` drops values although keys are unknown; `sum` rounds; `lookup` prints a sensitive key |
| C25 | `C25_violated` | `sensitive()` removes all other marks |
| C26 | `C26_violated` | instants less than a nanosecond apart are equal |
| C30, C31 | `C30_violated`, `C31_violated` | 0.1 becomes a float32, -0.5 an error; null members vanish |
| C39 | `C39_reset_violated` | a field missing in the document is reset |
| C40 | `C40_overwritten_violated` | after an error earlier fields have been overwritten |
| C41 | `C41_list_on_map_violated` | a map field with a list of classes gets classes in map order |
| C42 | `C42_value_slice_violated`, `C42_promoted_violated` | panics for slices of struct values and equal promoted names |
| C44, C45 | `C44_clash_violated`, `C44_hidden_violated`, `C45_slice_violated`, `C45_iface_violated` | types missed or confused by name; `type T []T` is not finished |
| C47, C48, C69 | `C47_violated*`, `C48_violated*`, `C69_violated` | quotes and keys are not escaped, zero values and empty lists are lost, `%f` rounds |
| C49 | `C49_violated` | blank text and numeric keys panic |
| C50 | `C50_violated` | one block type with different numbers of labels |
| C57 | `C57_violated` | the blocks for a field of an embedded struct that is hidden by a field of the same name are stored in that field, in place of its own |
| C58 | `C58_violated` | an empty first label lets the labels of the struct win |
| C59 | `C59_violated_class`, `C59_violated_reference` | the class of an unlisted label, and references between attributes, depend on map order |
| C60 | `C60_violated_arguments`, `C60_violated_history` | `spec` and `ref` are changed; variables leak into the next call |
| C61 | `C61_violated`, `C61_dropped` | all labels are dropped when their number differs from that of the label fields |
| C62 | `C62_violated`, `C62_violated_conditions` | a block or an object without label for a map, a label attribute that is not a string, a numeric key, a class of another type, an empty list of classes, classes for a text: panic; `C62_partial` proves that there is none when document, types and specification fit (`Fine`, `TypesOk`) |
| C63 | `C63_violated` | the target is changed before an error in a block is found |
| C64 | `C64_violated` | further blocks for a single struct are ignored, even malformed ones |
| C64 | `C64_violated_nil` | with a nil `*Struct` as the specification of a field (`NewValue` accepts it) every block for the field is ignored without an error (`C64_nil`: the field keeps what it held, for all documents) |
| C65 | `C65_violated` | objects in attributes are cut out by a regular expression |
| C66 | `C66_violated` | a struct type that contains itself in a field without tag recurses without end |
| C67 | `C67_violated` | an unknown attribute that is null is accepted |
| C68 | `C68_violated` | in the same way a field gets the block or the label of a field that it hides |
| C72 | `C72_violated_nil`, `C72_violated_labels`, `C72_violated_quote`, `C72_violated_zero`, `C72_violated_key` | written structs do not come back: nil and zero elements, own labels, empty labels, labels unlike the key and zero required attributes are lost; quotes are not escaped |
| C73 | `C73_violated`, `C73_violated_form` | the text depends on the map iteration order; with mixed elements in a map of interfaces even its form does |
| C74 | `C74_violated` | `Marshal` panics for nil pointers in maps, nil embedded pointers, names repeated in embedded structs, labels that are not strings, slices among structs in maps of interfaces, pointers to non-empty slices or maps of basic values, and pointers to slices or maps in slices and maps |
| C75 | `C75_violated` | content of a hidden field makes `Marshal` write an empty block for a slice element that is left out otherwise |
| C76 | `C76_violated_sum` (beyond the property) | exact results of `parseint` have a small precision: their sum is rounded |
| C77 | `C77_violated` | `signum(0.5)` and `signum` of large numbers are errors |
| C78 | `C78_violated` | `timeadd` cuts off fractions of seconds, leaves the years of four digits, and cuts offsets of the machine to minutes |
| C79 | `C79_violated` | `timeadd` follows the daylight saving time of the machine |
| C80 | `C80_below`, `C80_violated`, `C80_violated_key`, `C80_violated_null` | calls below operators, templates and conditionals always fail; keys that are not strings panic; `null(…)` ignores its arguments and is unknown inside of other calls |
| C81 | `C81_violated` | Go functions panic on null arguments and on arguments of the wrong type |
| C82 | `C82_violated` | functions of the caller under built-in names are replaced; a nil map of functions panics |
| C83 | `C83_violated` | a null list or map as the value of an attribute panics |
| C84 | `C84_fileset_violated` | `fileset` does not expand `~`, `file` does |
| C85 | `C85_violated`, `C85_confined_only` | absolute paths, `~` and `..` leave the base directory |
| C86 | `C86_violated` | for `a/b/` the last name is there twice |
| C87 | `C87_file_violated`, `C87_normal_form_violated` | `abspath` does not expand `~`; a working directory whose name is not in normal form is renamed |
| C88 | `C88_file_violated`, `C88_hash_violated`, `C88_fileset_violated`, `C88_crypto_violated`, `C88_key_violated` | sensitive paths, ciphertexts and namespaces are shown in errors; `rsadecrypt` prints a private key that is not an RSA key (`%t`) |
| C89 | `C89_hash_violated` | `filesha256(p)` is not `sha256(file(p))` for texts that are not in normal form |
| C90 | `C90_violated` | `fileexists` is an error for directories |
| C91 | `C91_violated` | a link to nowhere among the matches makes `fileset` fail |
| C93 | `C93_violated` | after a race of two `AddNodes("a", "b")` a finished one is not found by `GetNode("a", "b")` |
| C94 | `C94_violated` | a child is visible, and returned by `AddNode`, before its `Up` is set |
| C97 | `C97_violated`, `C97_violated_siblings` | structs that `dethcl` makes from one template share its pointers, maps and slices |
| C99 | `C99_violated` | `replace("a//b", "//", "/")` is not `a/b` but uses an empty regular expression |
| C100 | `C100_violated_pattern`, `C100_violated_charset` | wrong regular expressions and unknown character sets are shown although sensitive |
| C101 | `C101_violated` | `textdecodebase64` refuses U+FFFD that `textencodebase64` has written |
| C104 | `C104_violated`, `C104_marked` | `templatefile` with a sensitive path always fails |
| C105 | `C105_violated` | the lines of a heredoc that `MarshalHCL` writes are indented |
| C107 | `C107_violated_nil` | nothing is written for a nil interface in a slice; the next element is read with the class of the nil |
| C108 | `C108_violated` | `Unmarshal` of `{…}` or `[…]` ignores further attributes and blocks behind |
| C110 | `C110_violated` | the items in a result of `Variables` may never have been there together |
| C112 | `C112_violated_values` | methods with pointer receivers are not called when structs in maps and slices are written, but called when they are read |
| C112 | `C112_violated_labels` | the labels of a struct with `MarshalHCL` are not written |
| C112 | `C112_violated_spec` | `UnmarshalSpec` does not call `UnmarshalHCL` of its target, unlike `Unmarshal` |
| C113 | `C113_violated` | of several blocks for a generic field only the first is used, and labels are lost |
| C114 | `C114_violated` | an empty `map[string]any` field is written as an empty block, and reading that panics |
| C114 | `C114_violated_list` | an empty `[]any` field comes back nil |
| C118 | `C118_violated` | `CoreFunctions([]string{}...)` panics |
| C123 | `C123_violated`, `C123_violated_new` | `AddNode`, `GetNode` and `FindNode` read `Downs` without the lock: a data race with `AddNode` and `DeleteNode`, and nodes are used before they are safely made |
| C124 | `C124_violated` | overlapping calls are not serializable: two `AddNode("a")` return different nodes; `GetNode` misses a child while `DeleteNode` removes an earlier one |
| C125 | `C125_violated` | two `AddNode("a")` at the same time leave a tree that no calls by one goroutine can give (two children of one name) |
| C127 | `C127_violated` | `coalesce(5, x)` with `x` of unknown type announces a number and gives 5; when `x` is a string, both are strings (if `UnifyUnsafe` works as recalled) |
| C128 | `C128_matchkeys_violated` | `matchkeys` gives the empty list, not an unknown one, if a comparison with the search set is unknown (collection.go L392-394) |
| C128 | `C128_lookup_violated` | the default of `lookup` is given unconverted while the element type of the map is not known |
| C128 | `C128_type_violated` | `type` of a value of unknown type is known to be "dynamic" |
| C129 | `C129_violated` | `coalesce` drops the error of a conversion (L159) and skips the argument |
| C130 | `C130_violated` | `alltrue` of a list of values of unknown type is an error, though the values may turn out to be booleans |
| C131 | `C131_violated` | with an object that is not known yet, `lookup` of a sensitive key gives an unknown value that is not marked, and its type tells the key; `tostring` and the like of a sensitive unknown value are not marked (collection.go L300-302 is never reached) |
| C133 | `C133_violated` | marks of arguments that the result does not have: of a value that is not known yet (`tostring`), of the default value of `lookup` when the key is there, all the marks under `sensitive` |
| C134 | `C134_violated_sibling` | a reference to an attribute of the same body fails or not depending on the iteration order of a map (dethcl/unmarshal.go L117) |
| C134 | `C134_violated_generic` | the members of a generic field are stored at the node of the enclosing body: `name = "outer"`, `conf = { name = "inner" }` and `var.name` in a block gives "inner" (dethcl/unmarshal.go L205-212) |
| C135 | `C135_violated_list` | lists are stored as nodes with numbers as names, so that a reference to a list gives a map with the keys "0", "1", ... (dethcl/mapslice.go L175-179) |
| C135 | `C135_violated_null` | `null()` is not stored, so that a reference to it fails (dethcl/mapslice.go L185-188) |
| C135 | `C135_violated_sibling` | a reference to an attribute of the same body fails or not depending on the iteration order of a map (dethcl/mapslice.go L49-55) |
| C137 | `C137_violated` | integers from 2^63 are written if they have the type `uint64`, but refused as `float64` (utils/util.go L212-215) |
| C139 | `C139_violated` | `a = []` is read as a nil slice, for which Marshal writes `a = ` (dethcl/encoding.go L98-102) |
| C140 | `C140_violated` | `Variables` reads `Downs` without the lock (utils/tree.go L163): after `a` of `a`, `b`, `c` was read and is deleted, the loop goes on with `c` and `b` is missing from the result |
| C142 | `C142_violated` | An integer beyond 2^53 does not survive HCL to JSON to HCL: `JSONToHCL` reads numbers as `float64` (convert/convert.go L31-32), `a = 9007199254740993` comes back as `9007199254740992`. The rounding of encoding/json is a hypothesis; `C142_no_float` proves that no `float64` is the number. |
| C143 | `C143_violated`, `C143_wraps` | The sum of a duration is not always exact: `time.ParseDuration` (as recalled) computes digits after a point in `float64` and cuts, so `0.05000000000000m` is 2.999999999 s and `timeadd`, which cuts to seconds, adds two; `9223372036854775808ns` twice in one duration overflows `uint64` to zero instead of being refused. |
| C144 | `C144_violated` | dethcl splits tags at white space and does not read quoted values: `hcl:"my name,label"` is the attribute `m` for dethcl and the label `my name` for gohcl; `hcl:" a"` panics; `HCL:"a"` is read by dethcl alone; `json:"x"hcl:"a"` by gohcl alone. |
| C145 | `C145_violated` | a pointer to a string is written without quotes, so that `name  = hello` refers to a variable and is refused when read |
| C146 | `C146_violated`, `C146_violated_nil` | `Unmarshal` into a nil map, or into a map or slice of another type than that of generic data, panics after the document is decoded; with a nil target any text is accepted |
| C149 | `C149_violated` | `cidrsubnet` accepts a negative number of bits: `cidrsubnet("10.0.0.0/8", -9, 0)` is the text `<nil>`, with -1 it is `10.0.0.0/7`; `cidrsubnet("::/16", 80, 65535)` is `0.0.0.0/0`; the mask of `::ffff:10.0.0.0/104` is an IPv6 address |
| C150 | `C150_version4_violated` | `uuid` formats 16 random bytes without setting version and variant: only one of 64 results is a UUID of version 4 |
| C150 | `C150_accepts_violated` | `uuidv5` accepts a UUID between any two bytes, such as `(6ba7b810-9dad-11d1-80b4-00c04fd430c8)`, as a namespace |
| C151 | `C151_cost_violated` | `bcrypt(text, 3)`, also with 0 or a negative cost, silently uses cost 10 |
| C152 | `C152_violated` | `NewStruct(name, m1, m2)` drops `m2` silently, even if it is not acceptable; `NewStruct(name, []map[string]interface{}{}...)` panics |
| C153 | `C153_violated` | `base64decode`, `file`, `filebase64`, `fileexists`, `fileset` and `parseint` set `AllowMarked` without `AllowUnknown`: of a sensitive argument that is not known yet the result is not marked |
| C154 | `C154_violated` | a NaN in the data (YAML `.nan`, or a Go value) makes `Marshal` panic; `+Inf` is written as `+Inf`, which is no HCL number; `-Inf` is an error; the HCL number 10^39 + 0.5 silently becomes an infinite `float32`, and fractions below 2^-149 become 2^-149 or 0 |
| C155 | `C155_violated` | `templatefile` with a marked path fails for known `vars` and loses the marks of the path when the path or `vars` is not known; marks of `vars` of unknown type are lost |
| C156 | `C156_violated`, `C156_cycle` | `Marshal` of a map or slice that contains itself overflows the stack, which ends the program; there is no error |
| C160 | `C160_violated` | with a specification that refers to itself by a single field (`type Chain struct { Next *Chain }`) `JsonUnmarshal` refuses every document: a specified single field that is left out, or `null` one level up, is an error ("unexpected end of JSON input") |
| C161 | `C161_violated` | `UnmarshalSpec` writes entries for the fields that the specification does not name into the caller's specification, but the classes that they name only into `ref`: the same specification with another `ref` (or none) then fails with "class ref not found", for the same document that it decoded before |
| C161 | `C161_violated_names` | if a struct and a struct that it embeds both have a field `Name`, and only the embedded one is a block, the first call leaves an entry under `Name`, and the second call for the same document refuses the attribute of the other field |
| C162 | `C162_violated` | `NewStruct` with a map that contains itself (`m["self"] = [2]interface{}{"A", m}`) calls itself until the stack overflows, which ends the program and cannot be recovered |
| C163 | `C163_violated` | a `*Struct` in a description becomes part of the specification without a copy: changing it later, as `UnmarshalSpec` does with the specifications it is given (C161), changes the specification |
| C164 | `C164_violated` | with such types and a specification for the struct, the second block of one document is refused because of what the first one left in the specification |
| C166 | `C166_violated` | a value that the caller registered under the name of a type (`ref["main.Item"] = &Item{Val: "default"}`) is replaced by a new one when the struct has a field of that type without specification: the defaults are lost for all the fields that use the class |
| C166 | `C166_violated_packages` | types are registered as `reflect.Type.String`, which has the last part of the package path only: a struct with fields of `a/config.T` and `b/config.T` panics when the first field is given |
| C167 | `C167_violated` | in a specification for `map[[2]string]T` the default class comes from whichever first label the iteration meets: a block whose first label is listed, but not with its second, gets a class listed for another first label, or not, depending on the iteration order |
| C169 | `C169_violated` | `NewStruct` refuses field names that are not UTF-8, but takes such class names and labels (utils/common.go L115 is the only check); proto3 does not allow these strings, so the message cannot be sent (external, as recalled) |
| C170 | `C170_violated` | `log`, `pow`, `signum`, `parseint` and `timeadd` stand for functions of go-cty in the table (internal/lang/functions.go), those of package funcs with these names, and `type`, cannot be called from a document; so the properties of C77, C78, C143 and C148 are about the Go variables of package funcs, not about documents |
| C171 | `C171_violated` | a nil `*Struct` is accepted by `NewValue`; its getters return nil, so `JsonUnmarshal` takes none of its branches (det/unmarshal.go L86-102): the member of the document is read as raw text and dropped without an error, and the field keeps what it held |
