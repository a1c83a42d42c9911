{"id": "C01", "title": "Shorthand spec notation equals the long notation", "statement": "utils.NewValue gives the same Value for the short forms string, []string, map[string]string, map[[2]string]string as for the long forms [2]interface{}, [][2]interface{}, map[string][2]interface{}, map[[2]string][2]interface{} whose second components are nil.", "quantifier": "every class name, every list, every map, any length", "why_tests_cant": "a test fixes a few specs; the equivalence is claimed for every spec", "anchors": ["utils/common.go: NewValue, newSingleStruct, newListStruct, newMapStruct, newMap2Struct"]}
{"id": "C02", "title": "NewStruct/NewValue accept exactly the documented grammar and mirror it", "statement": "A specification without two-label maps is accepted if and only if it is built from the documented Go types at every depth (class names are strings, second components are nil or map[string]interface{}, field names are valid UTF-8); the resulting Struct has the same class names, the same list order and length, and exactly the same keys at every depth.", "quantifier": "all specification values of any nesting depth", "why_tests_cant": "the grammar is recursive and infinite; tests sample depth two or three", "anchors": ["utils/common.go: NewValue, NewStruct, newSingleStruct"]}
{"id": "C03", "title": "Every entry of a two-label map specification is kept", "statement": "After NewValue on map[[2]string]string or map[[2]string][2]interface{}, looking up (k1,k2) in the result gives the class specified for (k1,k2), for every entry of the map.", "quantifier": "all two-label map specifications, all iteration orders of Go maps", "why_tests_cant": "the failing inputs need two keys that share a first label; and which entry survives depends on map iteration order", "anchors": ["utils/common.go: newMap2Struct"]}
{"id": "C04", "title": "Spec construction is deterministic", "statement": "The Value returned by NewValue (and whether it fails) does not depend on the iteration order Go happens to use for the maps inside the specification.", "quantifier": "all specifications, all iteration orders at every level", "why_tests_cant": "Go randomises map order per run, a test sees one order", "anchors": ["utils/common.go: NewValue, NewStruct, newMap2Struct"]}
{"id": "C05", "title": "AddNode is idempotent and keeps sibling names unique", "statement": "After any sequential history of Tree operations no node has two children of the same name; AddNode(name) on a node that already has such a child returns that very child and changes nothing; otherwise it returns a new, empty, last child whose Up is the node.", "quantifier": "all histories of NewTree/AddNode/AddNodes/DeleteNode/AddItem/DeleteItem on any handles, including detached ones", "why_tests_cant": "histories are unbounded", "anchors": ["utils/tree.go: AddNode, AddNodes, grep, DeleteNode"]}
{"id": "C06", "title": "GetNode finds what AddNodes created", "statement": "After AddNodes(tag, names...) returned a node, GetNode(tag, names...) on the same receiver returns the same node, and keeps returning it after any later AddNode/AddNodes/AddItem/DeleteItem anywhere.", "quantifier": "all trees reachable by a sequential history, all paths, all later additions", "why_tests_cant": "paths and later histories are unbounded", "anchors": ["utils/tree.go: AddNodes, GetNode"]}
{"id": "C07", "title": "DeleteNode removes exactly the named child", "statement": "After DeleteNode(name) the receiver has no child of that name (GetNode gives nil), all its other children keep their identity and order, and every other node is unchanged.", "quantifier": "all reachable trees, all names", "why_tests_cant": "needs the uniqueness invariant over all histories", "anchors": ["utils/tree.go: DeleteNode, GetNode"]}
{"id": "C08", "title": "FindNode finds a node iff one exists below the receiver", "statement": "FindNode(names) returns a node reached by a downward path on which names occur in order ending at it; and returns non-nil whenever such a path exists.", "quantifier": "all trees, all name lists", "why_tests_cant": "the search is a depth-first search over arbitrary trees", "anchors": ["utils/tree.go: FindNode"]}
{"id": "C09", "title": "Variables exposes every stored item under its path", "statement": "For every node and key: Variables()[key] is the stored item if one exists (except the reserved key var), else the object of the child of that name, else absent; the root named var additionally exposes itself under var.", "quantifier": "all reachable trees, all keys", "why_tests_cant": "recursive over arbitrary trees with a shadowing rule", "anchors": ["utils/tree.go: Variables, AddItem, DeleteItem"]}
{"id": "C10", "title": "Concurrent AddNode never duplicates or loses a child", "statement": "When several goroutines call AddNode on the same node, for every interleaving every returned node is a child of the receiver afterwards, and two calls with the same name return the same node.", "quantifier": "all numbers of goroutines, all names, all interleavings", "why_tests_cant": "interleavings cannot be enumerated by tests", "anchors": ["utils/tree.go: AddNode (grep before Lock)"]}
{"id": "C11", "title": "A child that is never deleted is always found by concurrent readers", "statement": "GetNode(name) running concurrently with DeleteNode of other siblings returns the child of that name if that child is present during the whole call.", "quantifier": "all interleavings of a reader with a deleting goroutine", "why_tests_cant": "needs a precise schedule between reads of slice cells", "anchors": ["utils/tree.go: DeleteNode (in-place append), grep"]}
{"id": "C12", "title": "IPv4 parsing accepts exactly dotted quads of 0..255", "statement": "ParseIP on text without ':' returns an address iff the text is four dot-separated nonempty digit strings each of value at most 255 (leading zeros allowed), and the address has exactly these octets in IPv4-mapped 16-byte form.", "quantifier": "all byte strings", "why_tests_cant": "the input space is infinite; boundary cases (leading zeros, overflow of the accumulator) matter", "anchors": ["internal/ipaddr/ip.go: parseIPv4, ParseIP", "internal/ipaddr/parse.go: dtoi"]}
{"id": "C13", "title": "IPv6 parsing accepts exactly the IPv6 text grammar", "statement": "parseIPv6 returns an address iff the text is eight groups, or fewer groups with exactly one '::' standing for at least one zero group, the last two groups optionally written as a dotted quad; and then the 16 bytes are those groups with zeros inserted at the '::'.", "quantifier": "all byte strings", "why_tests_cant": "infinite input space with many corner cases (leading/trailing ::, :: for zero groups, dotted tail)", "anchors": ["internal/ipaddr/ip.go: parseIPv6", "internal/ipaddr/parse.go: xtoi"]}
{"id": "C14", "title": "Printing and parsing an address round-trips", "statement": "Parsing the canonical dotted-quad text of any four octets, or the eight-group hexadecimal text of any eight 16-bit groups, gives back exactly that address.", "quantifier": "all 2^32 IPv4 and 2^128 IPv6 addresses", "why_tests_cant": "too many addresses to test", "anchors": ["internal/ipaddr/ip.go: ParseIP, parseIPv4, parseIPv6"]}
{"id": "C15", "title": "ParseCIDR yields the network of the address", "statement": "When ParseCIDR(s) succeeds with an address of width w and prefix length n, then n <= w, the network address equals the address with its last w-n bits cleared, the network contains the address, and s was addr/decimal.", "quantifier": "all byte strings", "why_tests_cant": "infinite inputs, all prefix lengths and addresses", "anchors": ["internal/ipaddr/ip.go: ParseCIDR, indexByteString"]}
{"id": "C16", "title": "The IP parsers never index out of range", "statement": "ParseIP and ParseCIDR terminate normally (no out-of-range index or slice) on every byte string.", "quantifier": "all byte strings", "why_tests_cant": "absence of panics over all inputs", "anchors": ["internal/ipaddr/ip.go: parseIPv4, parseIPv6, ParseCIDR", "internal/ipaddr/parse.go: dtoi, xtoi"]}
{"id": "C17", "title": "cidrsubnets returns disjoint subnets inside the prefix", "statement": "When cidrsubnets(prefix, n1..nk) succeeds it returns k networks, the i-th with prefix length len+ni, all inside prefix, in increasing address order and pairwise disjoint.", "quantifier": "all prefixes (IPv4 and IPv6), all lists of newbits", "why_tests_cant": "infinitely many lists; overlap would show only for particular mixes of sizes", "anchors": ["internal/lang/funcs/cidr.go: CidrSubnetsFunc"]}
{"id": "C18", "title": "cidrsubnets succeeds whenever the aligned subnets fit", "statement": "If allocating the requested sizes one after the other with alignment stays inside the prefix, cidrsubnets succeeds with those networks; it fails only on invalid newbits or when they do not fit.", "quantifier": "all prefixes and all lists of newbits", "why_tests_cant": "the failing prefix (0.0.0.0, ::) is a single point of a 2^32 or 2^128 space", "anchors": ["internal/lang/funcs/cidr.go: CidrSubnetsFunc (PreviousSubnet start, rollover)"]}
{"id": "C19", "title": "cidrhost and cidrsubnet stay inside the prefix", "statement": "cidrhost(prefix, n) with 0 <= n < 2^h gives the n-th address of the prefix, with -2^h <= n < 0 the address counted from the end, both inside the prefix and all distinct; out of range it fails. cidrsubnet(prefix, b, n) with n < 2^b gives the n-th of 2^b disjoint subnets of prefix.", "quantifier": "all prefixes, host numbers, newbits, netnums", "why_tests_cant": "the space of addresses and numbers is astronomically large", "anchors": ["internal/lang/funcs/cidr.go: CidrHostFunc, CidrSubnetFunc"]}
{"id": "C20", "title": "alltrue/anytrue are sound three-valued logic", "statement": "When alltrue or anytrue gives a known result on a list with unknown elements, the same result is given for every way of replacing the unknown elements by booleans; on fully known input the result is the conjunction/disjunction with null counting as false.", "quantifier": "all lists of true/false/null/unknown, all completions", "why_tests_cant": "unbounded lists and completions", "anchors": ["internal/lang/funcs/collection.go: AllTrueFunc, AnyTrueFunc"]}
{"id": "C21", "title": "startswith on a partially known string is sound", "statement": "When startswith/endswith answers known true or false although the string is only known by a prefix refinement, the answer is the same for every string with that known prefix.", "quantifier": "all strings, all known prefixes, all completions", "why_tests_cant": "infinitely many completions", "anchors": ["internal/lang/funcs/string.go: StartsWithFunc"]}
{"id": "C22", "title": "collection helpers meet their contracts", "statement": "index returns the least position of an equal element or fails if there is none; matchkeys keeps exactly the values whose key is in the search set, in order; one/sum/coalesce/lookup/transpose return what their documentation says (transpose: y->x listed iff x->y listed, keys sorted; transposing twice is the identity up to sorting/deduplication and empty keys).", "quantifier": "all lists and maps", "why_tests_cant": "all lengths and contents", "anchors": ["internal/lang/funcs/collection.go: IndexFunc, MatchkeysFunc, OneFunc, SumFunc, CoalesceFunc, LookupFunc, TransposeFunc"]}
{"id": "C23", "title": "base64encode and base64decode are inverse", "statement": "base64decode(base64encode(s)) = s for every UTF-8 string; base64decode of anything else fails rather than returning invalid UTF-8.", "quantifier": "all strings", "why_tests_cant": "infinite inputs; padding classes", "anchors": ["internal/lang/funcs/encoding.go: Base64EncodeFunc, Base64DecodeFunc"]}
{"id": "C24", "title": "urlencode is invertible", "statement": "Percent-decoding (with + as space) the result of urlencode gives back the argument, and the result only contains unreserved characters, '%' and '+'.", "quantifier": "all byte strings", "why_tests_cant": "infinite inputs", "anchors": ["internal/lang/funcs/encoding.go: URLEncodeFunc"]}
{"id": "C25", "title": "Sensitive values stay marked", "statement": "sensitive(x) is marked sensitive, nonsensitive(x) removes exactly the sensitive mark, and both leave the value itself and (for sensitive) all other marks unchanged.", "quantifier": "all values and mark sets", "why_tests_cant": "mark sets are arbitrary", "anchors": ["internal/lang/funcs/sensitive.go: SensitiveFunc, NonsensitiveFunc"]}
{"id": "C26", "title": "timecmp is a consistent total order on instants", "statement": "timecmp(a,b) is -1, 0 or 1 according to the order of the instants, hence antisymmetric and transitive for all timestamps, including different zone offsets.", "quantifier": "all pairs and triples of RFC 3339 timestamps", "why_tests_cant": "infinitely many timestamps and offsets", "anchors": ["internal/lang/funcs/datetime.go: TimeCmpFunc"]}
{"id": "C30", "title": "Number conversion keeps the value", "statement": "Converting an HCL number to a native Go number yields a native number of the same value whenever the number is representable as a Go int64 or float64.", "quantifier": "all rational values", "why_tests_cant": "boundaries of int32/int64, negative fractions, float32 rounding; the number line is infinite", "anchors": ["utils/util.go: CtyNumberToNative"]}
{"id": "C31", "title": "Native to cty and back is the identity", "statement": "CtyToNative(NativeToCty(x)) = x for every x built from strings, booleans, numbers, lists and string-keyed maps.", "quantifier": "all nested values", "why_tests_cant": "recursive data of any depth", "anchors": ["utils/util.go: NativeToCty, CtyToNative, CtyNumberToNative"]}
{"id": "C33", "title": "Without a specification JsonUnmarshal is encoding/json", "statement": "With a nil spec or a spec without fields JsonUnmarshal has the same effect on the target and the same error as json.Unmarshal, whatever ref is.", "quantifier": "all documents, targets and refs", "why_tests_cant": "all inputs", "anchors": ["det/unmarshal.go: JsonUnmarshal"]}
{"id": "C34", "title": "List fields: every element is decoded with its own class, in order", "statement": "If a field is specified by a list of classes and is a slice, a successful JsonUnmarshal gives a slice of the same length as the JSON array whose k-th element is what decoding the k-th JSON element alone into a fresh instance of the k-th class (the first class when the list is shorter) gives.", "quantifier": "all arrays, all class lists, all nested specs", "why_tests_cant": "arrays and nesting are unbounded", "anchors": ["det/unmarshal.go: handleListOrMapStruct"]}
{"id": "C35", "title": "Map fields: same keys, class by key with deterministic default", "statement": "If a field is specified by a map of classes, a successful JsonUnmarshal gives a map with exactly the keys of the JSON object, each value decoded alone with the class for its key, or with the class of the lexicographically smallest specified key; the result does not depend on map iteration order.", "quantifier": "all objects, specs, iteration orders", "why_tests_cant": "Go randomises map order; unbounded maps", "anchors": ["det/unmarshal.go: handleMapStruct", "det/util.go: getFirstFromMap"]}
{"id": "C36", "title": "Two-label map fields keep every pair of keys", "statement": "If a field is specified by a two-level map, a successful JsonUnmarshal gives exactly one entry for every pair (k1,k2) of the nested JSON objects, decoded with the class chosen by k1 and k2, independent of iteration order.", "quantifier": "all nested objects, specs, iteration orders", "why_tests_cant": "as C35 with two levels", "anchors": ["det/unmarshal.go: handleMap2Struct"]}
{"id": "C37", "title": "Single fields are decoded with the specified class", "statement": "A field specified by one class receives a fresh instance of that class holding what decoding the field's JSON alone gives.", "quantifier": "all JSON values and nested specs of any depth", "why_tests_cant": "recursive", "anchors": ["det/unmarshal.go: handleSingleStruct"]}
{"id": "C38", "title": "A class missing from the registry is an error, never a guess", "statement": "If decoding needs a class that is neither in ref nor reachable from the target type, JsonUnmarshal fails.", "quantifier": "all documents, specs, refs", "why_tests_cant": "all inputs", "anchors": ["det/util.go: getRef", "det/unmarshal.go: JsonUnmarshal"]}
{"id": "C39", "title": "Unspecified fields behave as in encoding/json", "statement": "A field without a specification ends up exactly as json.Unmarshal on the same document and target would leave it.", "quantifier": "all documents and targets", "why_tests_cant": "differs only when the JSON lacks the field and the target had a value", "anchors": ["det/unmarshal.go: JsonUnmarshal (f.Set(rawField))"]}
{"id": "C40", "title": "A failed JsonUnmarshal leaves the target unchanged", "statement": "If JsonUnmarshal returns an error the target object is as before the call.", "quantifier": "all documents, targets, specs, failure points", "why_tests_cant": "failure can happen at any nested point", "anchors": ["det/unmarshal.go: JsonUnmarshal (in-place update)"]}
{"id": "C41", "title": "JsonUnmarshal is deterministic", "statement": "Two calls with equal arguments give equal results.", "quantifier": "all arguments, all map iteration orders", "why_tests_cant": "depends on random map order", "anchors": ["det/unmarshal.go: handleListOrMapStruct on map fields"]}
{"id": "C42", "title": "JsonUnmarshal never panics and produces well-typed values for well-typed specifications", "statement": "If every specified class implements the declared type of its field, JsonUnmarshal on any JSON document either returns an error or fills the target with values of the declared types; it never panics.", "quantifier": "all documents, all well-typed specifications", "why_tests_cant": "reflection panics depend on combinations of types", "anchors": ["det/unmarshal.go: handleMapStruct, handleListOrMapStruct, handleSingleStruct, handleMap2Struct"]}
{"id": "C43", "title": "Templates in ref are only prototypes", "statement": "The result of JsonUnmarshal depends on a template in ref only through its type, and each decoded value is a fresh instance.", "quantifier": "all templates and documents", "why_tests_cant": "aliasing across arbitrary histories", "anchors": ["det/util.go: clone, getRef"]}
{"id": "C44", "title": "Type discovery finds exactly the reachable struct types", "statement": "The registry discovered from a target type contains a struct name iff a struct of that name is reachable through fields, pointers, slices, maps and the given interface implementations, under both its short and its package-qualified name.", "quantifier": "all type graphs, including recursive types", "why_tests_cant": "type graphs are arbitrary", "anchors": ["det/collect.go: collectStructTypes"]}
{"id": "C45", "title": "Type discovery terminates on every Go type", "statement": "collectStructTypes terminates for every finite type graph.", "quantifier": "all finite type graphs including recursive ones", "why_tests_cant": "termination", "anchors": ["det/collect.go: collectStructTypes"]}
{"id": "C46", "title": "Explicit ref entries take precedence over discovered ones at every depth", "statement": "If ref maps a class name to a template then every use of that class name at any nesting depth uses that template's type.", "quantifier": "all refs, specs, documents, depths", "why_tests_cant": "recursive", "anchors": ["det/unmarshal.go: JsonUnmarshal (merge of ref)"]}
{"id": "C47", "title": "Marshal then Unmarshal of generic data is the identity", "statement": "For a map[string]interface{} built from strings, booleans, numbers, null, lists and maps, Unmarshal(Marshal(m)) into a fresh map gives data equal to m (map order aside).", "quantifier": "all nested generic data, all map iteration orders", "why_tests_cant": "recursive data, text syntax and label collapsing interact", "anchors": ["dethcl/encoding.go: encoding, loopHash, isHashAll, shortDirect", "dethcl/mapslice.go: decodeMap, decodeBody, decodeSlice, expressionToNative", "dethcl/marshal.go: marshalLevel"]}
{"id": "C48", "title": "Marshal output is syntactically valid HCL", "statement": "Marshal of generic data either fails or returns text that parses as HCL.", "quantifier": "all nested generic data", "why_tests_cant": "as C47", "anchors": ["dethcl/encoding.go: encoding, shortDirect", "dethcl/marshal.go: marshalLevel"]}
{"id": "C49", "title": "Unmarshal into a map never panics", "statement": "Unmarshal of any byte string into a map[string]interface{} returns a value or an error.", "quantifier": "all byte strings", "why_tests_cant": "absence of panics over all inputs", "anchors": ["dethcl/mapslice.go: decodeMap"]}
{"id": "C50", "title": "Decoding a generic body keeps every attribute and every block", "statement": "Unmarshal of an HCL body into a map has an entry for each attribute and, for each block, an entry reachable by its type and labels, unless a later block repeats the same type and labels.", "quantifier": "all bodies with any number of attributes and blocks with up to two labels", "why_tests_cant": "collisions between label depths", "anchors": ["dethcl/mapslice.go: decodeBody"]}
{"id": "C51", "title": "Generic decoding is independent of map iteration order", "statement": "The map produced by Unmarshal does not depend on Go's random map iteration order, for documents without references between attributes.", "quantifier": "all bodies, all orders", "why_tests_cant": "random order", "anchors": ["dethcl/mapslice.go: decodeBody"]}
{"id": "C57", "title": "Struct decoding: blocks go to the field with their type, in order", "statement": "For a slice field specified by a list of classes, Unmarshal gives one element per block of that type, in source order, the k-th decoded with the k-th class or the first if the list is shorter.", "quantifier": "all bodies, class lists", "why_tests_cant": "unbounded", "anchors": ["dethcl/unmarshal.go: UnmarshalSpecTree (ListStruct)"]}
{"id": "C58", "title": "Struct decoding: labelled blocks become map entries", "statement": "For a map field each block of that type becomes the entry for its first label (two labels for map[[2]string]T), later blocks with equal labels win, and no other entries exist.", "quantifier": "all bodies, specs", "why_tests_cant": "unbounded", "anchors": ["dethcl/unmarshal.go: UnmarshalSpecTree (MapStruct, Map2Struct)"]}
{"id": "C59", "title": "Struct decoding is deterministic", "statement": "Two Unmarshal/UnmarshalSpec calls with equal document, target, spec and ref give equal results.", "quantifier": "all arguments, all map iteration orders", "why_tests_cant": "random map order selects the default class", "anchors": ["dethcl/unmarshal.go: UnmarshalSpecTree (first of nextMapStructs)"]}
{"id": "C60", "title": "Struct decoding does not modify spec or ref", "statement": "After UnmarshalSpec the caller's spec and ref are as before, so consecutive calls do not influence each other.", "quantifier": "all documents and histories of calls", "why_tests_cant": "history property", "anchors": ["dethcl/unmarshal.go: loopFields, UnmarshalSpecTree", "utils/tree.go: DefaultTreeFunctions"]}
{"id": "C61", "title": "Labels are assigned to label fields in order", "statement": "The labels of a block fill the label fields of its struct in declaration order.", "quantifier": "all label counts, all structs", "why_tests_cant": "all shapes", "anchors": ["dethcl/unmarshal.go: UnmarshalSpecTree labels, getLabels"]}
{"id": "C69", "title": "JSON to HCL and back preserves the document", "statement": "HCLToJSON(JSONToHCL(d)) denotes the same JSON value as d.", "quantifier": "all JSON objects", "why_tests_cant": "recursive data", "anchors": ["convert/convert.go: JSONToHCL, HCLToJSON"]}
{"id": "C70", "title": "fmtconvert picks the conversion named by its flags", "statement": "For each pair of formats the command applies exactly the conversion from the input format to the output format, or reports an error for equal or unknown formats.", "quantifier": "all pairs of flag values", "why_tests_cant": "flag values are arbitrary strings", "anchors": ["cmd/fmtconvert/main.go: main"]}
{"id": "C27", "title": "cidrnetmask returns the mask of IPv4 prefixes only", "statement": "cidrnetmask(prefix) returns the netmask with exactly the prefix length leading ones for every IPv4 prefix and an error for every IPv6 prefix outside the IPv4-mapped range.", "quantifier": "all prefix texts", "why_tests_cant": "all prefixes of two address families", "anchors": ["internal/lang/funcs/cidr.go: CidrNetmaskFunc"]}
{"id": "C62", "title": "Struct decoding never panics", "statement": "Unmarshal/UnmarshalSpec return an error for every document that cannot be decoded into the target; no document makes them panic.", "quantifier": "all documents, targets, specs", "why_tests_cant": "one document per test; the panics need particular label counts and value types", "anchors": ["dethcl/unmarshal.go: UnmarshalSpecTree (block.Labels[0], AsString, reflect Set)"]}
{"id": "C63", "title": "A refused document leaves the target unchanged", "statement": "If Unmarshal returns an error then the target struct has the content it had before the call.", "quantifier": "all documents, targets", "why_tests_cant": "all ways to fail", "anchors": ["dethcl/unmarshal.go: UnmarshalSpecTree (assignments through FieldByName while blocks are still being decoded)"]}
{"id": "C64", "title": "No block is ignored", "statement": "Every block of the document has an effect on the result or is reported: a document with an additional malformed block is refused.", "quantifier": "all documents", "why_tests_cant": "unbounded", "anchors": ["dethcl/unmarshal.go: UnmarshalSpecTree (SingleStruct uses blocks[0])"]}
{"id": "C65", "title": "The attribute form of a block list is equivalent to blocks", "statement": "`items = [{...}, {...}]` for a slice of structs gives one element per object, in order, each decoded from the text between its braces, as the blocks would be.", "quantifier": "all lists of objects", "why_tests_cant": "all texts", "anchors": ["dethcl/unmarshal.go: refreshBody (regexp `(?s){[^}]+}`)"]}
{"id": "C66", "title": "Struct decoding terminates", "statement": "Unmarshal returns for every document and every target type.", "quantifier": "all documents, all struct types", "why_tests_cant": "non-termination is not observable by a finite test; recursion over types", "anchors": ["dethcl/unmarshal.go: loopFields, UnmarshalSpecTree"]}
{"id": "C67", "title": "Unknown attributes and blocks are refused", "statement": "After a successful Unmarshal every attribute and every block of the document has a field with its tag.", "quantifier": "all documents, struct types", "why_tests_cant": "unbounded", "anchors": ["dethcl/unmarshal.go: UnmarshalSpecTree (nulls), refreshBody, gohcl.DecodeBody"]}
{"id": "C68", "title": "Attributes reach exactly their fields", "statement": "After a successful Unmarshal a field of ordinary type holds the value of the attribute with its tag; without that attribute, or if it is null, the field is as before; a field for a single struct holds the decoded block, or is as before without one; fields of the target that take no part in decoding are as before.", "quantifier": "all documents, struct types, targets, iteration orders", "why_tests_cant": "all combinations of fields, attributes and previous content", "anchors": ["dethcl/unmarshal.go: UnmarshalSpecTree (rawStruct, FieldByName.Set), refreshBody, loopFields"]}
{"id": "C71", "title": "A document that writes a struct out decodes to that struct", "statement": "If every attribute and block of a document belongs to a field of the struct type and every field (ordinary value, single struct, slice, map or two-level map of structs, label) is given by its attribute, its blocks or labels, or is optional or a block and absent and zero, then Unmarshal into a new struct succeeds and gives exactly this struct. The order of attributes and of blocks of different fields does not matter.", "quantifier": "all documents, nesting depths, struct types without generic fields, states of ref and of the variable tree, iteration orders", "why_tests_cant": "all values of all types; also excludes spurious errors", "anchors": ["dethcl/unmarshal.go: UnmarshalSpecTree, unmarshalSlice, unmarshalMap, loopFields"]}
{"id": "C72", "title": "Marshal and Unmarshal of structs are inverse", "statement": "For every struct value v, Marshal(v) is a valid HCL document, and Unmarshal of it into a new struct of the same type, with the labels of v, succeeds and gives v, whatever the map iteration orders in both directions.", "quantifier": "all struct types and values, nesting depths, iteration orders, states of ref and of the variable tree", "why_tests_cant": "all values of all types; every combination of labels, keys and nesting; nondeterministic order", "anchors": ["dethcl/marshal.go: Marshal, marshal, getFields, getOutlier", "dethcl/unmarshal.go: UnmarshalSpecTree"]}
{"id": "C73", "title": "Marshal is deterministic", "statement": "Marshal gives the same text for the same value in every run; Go's random map iteration order is not observable.", "quantifier": "all struct types and values, nesting depths, pairs of iteration orders", "why_tests_cant": "the orders of two runs are chosen by the runtime; a test sees few of them", "anchors": ["dethcl/marshal.go: Marshal, getOutlier (MapRange)"]}
{"id": "C74", "title": "Marshal of a struct does not panic", "statement": "For every struct value, Marshal returns a text or an error and does not panic.", "quantifier": "all struct types and values, nesting depths, iteration orders", "why_tests_cant": "absence of panics over all values", "anchors": ["dethcl/marshal.go: Marshal, marshal, getFields, getOutlier"]}
{"id": "C75", "title": "Hidden fields do not influence what Marshal writes", "statement": "If two values differ only in unexported fields and in fields tagged hcl:\"-\", of the struct itself or of structs at any depth, then Marshal gives the same text (or the same error) for both, for the same map iteration order.", "quantifier": "all struct types, pairs of values, nesting depths, embedded structs, iteration orders", "why_tests_cant": "a relation between all pairs of values; information may leak through zero tests, ordering or errors", "anchors": ["dethcl/marshal.go: getFields, marshalLevel (IsZero)"]}
{"id": "C76", "title": "parseint reads exactly the integers of a base", "statement": "For every string s and base, the function parseint of package funcs gives a number exactly if the base is a whole number from 2 to 62 and s is an optional sign and one or more digits of that base; the number is exactly the one that is written, without rounding, and it carries the marks of both arguments. Every integer is read back from its digits. An error message does not depend on a sensitive text, nor the message that the text cannot be parsed on a sensitive base.", "quantifier": "all strings, bases and marks; all pairs of sensitive values", "why_tests_cant": "infinitely many texts of any length in 61 bases; secrecy relates pairs of runs", "anchors": ["internal/lang/funcs/number.go: ParseIntFunc", "internal/lang/funcs/redact.go: redactIfSensitive"]}
{"id": "C77", "title": "signum gives the sign of every number", "statement": "For every number, the function signum of package funcs gives -1, 0 or 1 according to its sign.", "quantifier": "all numbers, with fractions, beyond 64 bits, infinities", "why_tests_cant": "all numbers", "anchors": ["internal/lang/funcs/number.go: SignumFunc"]}
{"id": "C78", "title": "timeadd moves a timestamp by the duration", "statement": "For every valid RFC 3339 timestamp in any zone and every duration, the function timeadd of package funcs gives a valid timestamp in the same zone for the instant moved by the duration; adding two durations one after the other is adding their sum. timestamp gives a valid timestamp of its moment.", "quantifier": "all valid timestamps, zones and durations; all locations of the machine", "why_tests_cant": "calendar arithmetic over all dates, offsets and durations", "anchors": ["internal/lang/funcs/datetime.go: TimeAddFunc, TimestampFunc, MakeStaticTimestampFunc, parseTimestamp"]}
{"id": "C79", "title": "timeadd gives the same result on every machine", "statement": "The result of timeadd only depends on its arguments, not on the time zone of the machine it runs on.", "quantifier": "all valid timestamps and durations; all pairs of locations", "why_tests_cant": "a relation between runs on machines in different places", "anchors": ["internal/lang/funcs/datetime.go: TimeAddFunc, parseTimestamp"]}
{"id": "C80", "title": "A function call means the same wherever it occurs", "statement": "For every expression, ExpressionToCty gives exactly the value that the expression denotes when each call stands for the function registered under its name, whether the call is the whole expression or a part of it: an element of a list, a member or key of an object, an argument, or an operand.", "quantifier": "all expressions of any depth, all variables, all registered functions of either kind", "why_tests_cant": "infinitely many nestings of calls, lists, objects and operators", "anchors": ["utils/util.go: ExpressionToCty, callToCty"]}
{"id": "C81", "title": "Calls of Go functions give the result or an error, never a panic", "statement": "For every Go function registered in a map[string]interface{} and all arguments, the call gives the first result that is not an error if the first error among the results is nil, fails if the function returns an error or the number of arguments is wrong, and does not panic on null arguments or arguments of the wrong type.", "quantifier": "all functions with any number of parameters and results, all argument values", "why_tests_cant": "all signatures and all positions of the error among the results", "anchors": ["utils/util.go: callToCty"]}
{"id": "C82", "title": "Functions registered by the caller are the ones called", "statement": "After DefaultTreeFunctions every function in the map of the caller is the one that an expression calls under its name; built-in functions only fill names that the caller left free; no map makes it panic.", "quantifier": "all maps of functions, all iteration orders, all names and arguments", "why_tests_cant": "all maps and all iteration orders of Go maps", "anchors": ["utils/tree.go: DefaultTreeFunctions", "utils/util.go: ExpressionToCty"]}
{"id": "C83", "title": "The expression made from a value has that value", "statement": "For every value, the expression that CtyToExpression makes from it evaluates in every context to the same data; in particular replacing an attribute by its evaluated expression does not change what is decoded, and no value makes it panic.", "quantifier": "all values, contexts and iteration orders of maps", "why_tests_cant": "all values and iteration orders", "anchors": ["utils/util.go: CtyToExpression", "dethcl/unmarshal.go: UnmarshalSpec"]}
{"id": "C84", "title": "The file functions open the file that the path denotes", "statement": "For every path, file, filebase64, fileexists and the hashes of files open the place that the path denotes: an absolute path from the root, a path with ~ from the home directory, any other path from the base directory. Two paths to the same place open the same text, and fileset starts at the same place as file.", "quantifier": "all paths, base directories, home and working directories", "why_tests_cant": "all paths with any sequence of dots, double dots and repeated slashes", "anchors": ["internal/lang/funcs/filesystem.go: openFile, MakeFileExistsFunc, MakeFileSetFunc, PathExpandFunc"]}
{"id": "C85", "title": "The file functions stay in their base directory", "statement": "No path given to file, filebase64, fileexists or the hashes of files leads to a place outside of the base directory with which the functions were made.", "quantifier": "all paths and base directories", "why_tests_cant": "all paths; a test checks only the escapes that its author thought of", "anchors": ["internal/lang/funcs/filesystem.go: openFile, MakeFileExistsFunc"]}
{"id": "C86", "title": "dirname and basename split a path", "statement": "For every path, joining dirname and basename denotes the same place as the path; basename is one name, and dirname is absolute exactly if the path is.", "quantifier": "all paths, seen from any directory", "why_tests_cant": "all paths", "anchors": ["internal/lang/funcs/filesystem.go: BasenameFunc, DirnameFunc"]}
{"id": "C87", "title": "abspath names the same file from everywhere", "statement": "For every path, abspath gives an absolute path to the place that the path denotes in the working directory, the same text for all paths to that place; it is idempotent, and file(abspath(p)) reads the same file as file(p).", "quantifier": "all paths and working directories", "why_tests_cant": "all paths and working directories", "anchors": ["internal/lang/funcs/filesystem.go: AbsPathFunc, openFile"]}
{"id": "C88", "title": "Errors do not show sensitive arguments", "statement": "If an argument of file, filebase64, fileexists, fileset, the hashes of files, uuidv5 or rsadecrypt is marked as sensitive, then the text of an error does not depend on it beyond the answer of the operating system; results carry the marks of the arguments.", "quantifier": "all arguments, marks and file systems", "why_tests_cant": "noninterference relates two runs, for all pairs of arguments and all errors of the operating system", "anchors": ["internal/lang/funcs/filesystem.go: MakeFileFunc, MakeFileExistsFunc, MakeFileSetFunc, readFileBytes", "internal/lang/funcs/crypto.go: makeFileHashFunction, UUIDV5Func, RsaDecryptFunc", "internal/lang/funcs/redact.go: redactIfSensitive"]}
{"id": "C89", "title": "The functions agree on the contents of a file", "statement": "file gives the text of a file exactly if it can be read and is UTF-8; filebase64 encodes exactly its bytes; base64decode(filebase64(p)) is file(p); and the hash functions of files give the hash of file(p).", "quantifier": "all file systems, paths and contents", "why_tests_cant": "all contents, in particular texts that are not in normal form", "anchors": ["internal/lang/funcs/filesystem.go: MakeFileFunc, readFileBytes", "internal/lang/funcs/crypto.go: makeFileHashFunction, makeStringHashFunction"]}
{"id": "C90", "title": "fileexists tells whether file finds a file", "statement": "For every path, fileexists answers true or false; if it answers false then file reports that there is no file, and if it answers true then there is a regular file that file does not report as missing.", "quantifier": "all file systems and paths", "why_tests_cant": "all states of the file system", "anchors": ["internal/lang/funcs/filesystem.go: MakeFileExistsFunc, MakeFileFunc"]}
{"id": "C91", "title": "fileset lists the regular files that match", "statement": "For every directory and pattern, fileset gives exactly the regular files among the matches, by their names relative to the directory; other matches do not influence the result.", "quantifier": "all file systems, directories, patterns and lists of matches", "why_tests_cant": "all states of the file system, including links to nowhere", "anchors": ["internal/lang/funcs/filesystem.go: MakeFileSetFunc"]}
{"id": "C92", "title": "Concurrent additions anywhere in a tree lose nothing and keep it a tree", "statement": "While any number of goroutines call AddNode, AddNodes, GetNode and FindNode on any nodes of trees (no DeleteNode), in every interleaving: children stay children of the same node in the same order under the same name, no node gets two parents, is listed twice or is below itself, and every node returned by AddNodes(tag, names...) stays reachable from the receiver under exactly these names.", "quantifier": "all numbers of goroutines, sequences of calls, names, initial trees and interleavings", "why_tests_cant": "interleavings over several levels cannot be enumerated by tests", "anchors": ["utils/tree.go: AddNode, AddNodes"]}
{"id": "C93", "title": "GetNode finds what an earlier AddNodes has added", "statement": "If a call of AddNodes(tag, names...) has returned a node, then every later call of GetNode(tag, names...) on the same receiver returns that node.", "quantifier": "all interleavings with other AddNodes, GetNode and FindNode calls", "why_tests_cant": "needs two overlapping additions of the same name one level above", "anchors": ["utils/tree.go: AddNode (grep before Lock), GetNode, grep"]}
{"id": "C94", "title": "A node reached from its parent knows its parent", "statement": "Whenever a node is among the Downs of another one, its Up is that other node.", "quantifier": "all interleavings of AddNode, AddNodes, GetNode and FindNode calls on any nodes", "why_tests_cant": "needs a read between two statements of AddNode", "anchors": ["utils/tree.go: AddNode (append before child.Up = self)"]}
{"id": "C95", "title": "FindNode is right while nodes are being added", "statement": "In every interleaving with additions: a node returned by FindNode(names) is below the receiver and reached through nodes of these names in this order, the last one being the node itself; and if a node of that name was below the receiver when the call began, then FindNode with one name does not return nil.", "quantifier": "all trees, names and interleavings", "why_tests_cant": "the traversal interleaves with additions in unboundedly many ways", "anchors": ["utils/tree.go: FindNode"]}
{"id": "C96", "title": "Additions never deadlock", "statement": "In every interleaving each unfinished call can go on, or it waits for the lock of one node whose holder can go on; after all calls have ended no lock is held.", "quantifier": "all interleavings of AddNode, AddNodes, GetNode and FindNode calls on any nodes", "why_tests_cant": "absence of deadlock concerns all schedules", "anchors": ["utils/tree.go: AddNode (mu.Lock, mu.Unlock)"]}
{"id": "C97", "title": "Structs made from a template by dethcl are independent", "statement": "Decoding HCL never changes a template struct given in ref, and every struct that the decoder makes from a template is independent of the template and of the other structs made from it: no write through one changes what the other holds.", "quantifier": "all templates with any graph of pointers, maps and slices, any number of clones, all later writes", "why_tests_cant": "aliasing shows only after a later write through another path, and graphs are unbounded", "anchors": ["dethcl/util.go: clone"]}
{"id": "C98", "title": "Structs made by det are independent", "statement": "Every struct that det makes from a template in ref is independent of the template, of the other structs made from it and of everything else that existed, and contains nothing of the template.", "quantifier": "all templates with any graph of pointers, maps and slices, any number of clones, all later writes", "why_tests_cant": "aliasing shows only after a later write through another path, and graphs are unbounded", "anchors": ["det/util.go: clone"]}
{"id": "C99", "title": "replace replaces each occurrence", "statement": "replace(str, substr, rep) is str with each occurrence of substr, found from left to right without overlap, replaced by rep; the result carries the marks of all arguments.", "quantifier": "all texts", "why_tests_cant": "texts are unbounded; overlaps and slashes are corner cases", "anchors": ["internal/lang/funcs/string.go: ReplaceFunc"]}
{"id": "C100", "title": "Errors of text functions keep secrets", "statement": "Errors of replace, textencodebase64 and textdecodebase64 do not show sensitive arguments.", "quantifier": "all pairs of sensitive arguments", "why_tests_cant": "is about two runs", "anchors": ["internal/lang/funcs/string.go: ReplaceFunc", "internal/lang/funcs/encoding.go: TextEncodeBase64Func, TextDecodeBase64Func"]}
{"id": "C101", "title": "Text encodings can be undone", "statement": "textdecodebase64(textencodebase64(s, e), e) is s with the same marks for every s that the character set e can write; base64gzip loses nothing.", "quantifier": "all texts, all character sets", "why_tests_cant": "texts and character sets are unbounded", "anchors": ["internal/lang/funcs/encoding.go: TextEncodeBase64Func, TextDecodeBase64Func, Base64GzipFunc"]}
{"id": "C102", "title": "Errors of conversions keep secrets", "statement": "Errors of tostring, tonumber, tobool, tolist, toset and tomap do not depend on a value that is sensitive at any depth, beyond its type; values that are not sensitive are shown only if they are strings that were to become booleans or numbers.", "quantifier": "all values and types", "why_tests_cant": "is about two runs", "anchors": ["internal/lang/funcs/conversion.go: MakeToFunc"]}
{"id": "C103", "title": "length is right for whatever the value turns out to be", "statement": "length(v) is an error exactly if v is null or of a type without length. A known result is the length of every known value that v can turn out to be. It is unknown only if v is of unknown type, unknown and not a tuple or object, or a set with at least two elements, not all wholly known. The result carries exactly the marks of v itself.", "quantifier": "all values, known or not, and all their outcomes", "why_tests_cant": "is about all outcomes of unknown parts", "anchors": ["internal/lang/funcs/collection.go: LengthFunc"]}
{"id": "C104", "title": "templatefile gives the value of the template", "statement": "templatefile(path, vars) gives exactly the value of the template in the file, with the variables vars and the functions of the caller other than templatefile; the result carries the marks of path. A template that calls templatefile is an error, and what the caller has under that name does not matter.", "quantifier": "all files, templates, variables and functions", "why_tests_cant": "templates and sets of functions are unbounded", "anchors": ["internal/lang/funcs/filesystem.go: MakeTemplateFileFunc"]}
{"id": "C105", "title": "What a type's own MarshalHCL writes is what its UnmarshalHCL gets", "statement": "If a type has its own method MarshalHCL, the attributes and blocks that the method writes are exactly the content of the block of the value in the text of Marshal, at every level and among any number of such values; the bytes between the braces, which its method UnmarshalHCL gets, have the same content. At the top of a document the bytes are those of the method.", "quantifier": "all texts of the method, levels, tags and labels", "why_tests_cant": "the texts of foreign methods are unbounded", "anchors": ["dethcl/marshal.go: marshal", "dethcl/unmarshal.go: getBlockBytes"]}
{"id": "C106", "title": "Interface fields get the classes that the specification gives", "statement": "If a document, with a specification, writes a struct out \u2014 every field given by its attribute, its blocks or the labels, or absent and zero, and the class of every block given by the specification (by position, by label, or a default when all classes agree) or by the type of the field \u2014 UnmarshalSpec succeeds and gives exactly this struct, in every map iteration order, whatever else is in ref and in the tree of variables, and with attributes and blocks of different fields in any order. At most one struct is written out.", "quantifier": "all struct types, specifications, documents, ref maps, iteration orders", "why_tests_cant": "types, specifications and documents nest without bound; iteration orders", "anchors": ["dethcl/unmarshal.go: UnmarshalSpecTree, plusUnmarshalSpecTree", "dethcl/unmarshal.go: loopFields"]}
{"id": "C107", "title": "Structs with interfaces come back with their specification", "statement": "What Marshal writes for a struct with fields of interface type is a document, and UnmarshalSpec of it with a specification that names the classes of the structs in these fields gives the struct again; different structs are written differently.", "quantifier": "all struct types, structs, specifications, iteration orders of both calls", "why_tests_cant": "types, structs and specifications nest without bound; iteration orders", "anchors": ["dethcl/marshal.go: marshal, getOutlier", "dethcl/unmarshal.go: UnmarshalSpecTree"]}
{"id": "C108", "title": "Objects in braces and lists in brackets are decoded like attribute values", "statement": "Unmarshal into a map of a text in braces, and into a slice of a text in brackets, succeeds only if the text is an object or a list, and gives the value that an attribute with this text would get.", "quantifier": "all texts, objects, lists, white space around them, iteration orders", "why_tests_cant": "objects and lists nest without bound; the texts that must be refused are unbounded", "anchors": ["dethcl/mapslice.go: decodeMap, decodeSlice, decodeObjectConsExpr"]}
{"id": "C109", "title": "Variables shows what stays and nothing else while others write", "statement": "While other goroutines add nodes and add or delete items, Variables never waits; its result has every item that is in a node from the beginning of the call to its end, under the names that lead to the node, unless a sibling of the same name, an item called like a child or the reserved name var hides it; and every item in the result was in that place at some moment of the call.", "quantifier": "all trees, items, numbers of goroutines, calls and interleavings; all orders in which items are visited", "why_tests_cant": "interleavings are unbounded and depend on the scheduler", "anchors": ["utils/tree.go: Variables, AddItem, DeleteItem, AddNode"]}
{"id": "C110", "title": "Variables shows one moment", "statement": "The items that Variables shows were all there at one and the same moment of the call.", "quantifier": "all trees, items, goroutines, calls and interleavings", "why_tests_cant": "interleavings are unbounded and depend on the scheduler", "anchors": ["utils/tree.go: Variables, AddItem, DeleteItem"]}
{"id": "C111", "title": "Blocks of types with UnmarshalHCL are decoded by the method", "statement": "If a type inside of a struct has its own method UnmarshalHCL, every block for this type is decoded by the method, on a new struct (not on one with content of earlier blocks) with the labels and the content of the block, and the result is stored in the field in the place of the block, next to structs without the method.", "quantifier": "all struct types, methods, documents, specifications, depths of nesting, iteration orders", "why_tests_cant": "methods are arbitrary code of the user; types and documents nest without bound", "anchors": ["dethcl/unmarshal.go: plusUnmarshalSpecTree, UnmarshalSpecTree, Unmarshal"]}
{"id": "C112", "title": "Structs with types that have both methods come back", "statement": "A struct whose fields hold structs with their own MarshalHCL and UnmarshalHCL, where UnmarshalHCL understands what MarshalHCL writes, comes back when the text of Marshal is decoded, alongside structs without methods, at every depth.", "quantifier": "all struct types, methods, values, specifications, depths of nesting, iteration orders", "why_tests_cant": "methods are arbitrary code of the user; types and values nest without bound", "anchors": ["dethcl/marshal.go: marshal", "dethcl/unmarshal.go: plusUnmarshalSpecTree, Unmarshal, UnmarshalSpec"]}
{"id": "C113", "title": "Generic fields of structs get the generic data of their attribute or block", "statement": "A field of type []any or map[string]any that has no specification gets from its attribute what Unmarshal makes of the same text as a list or map, from its block what Unmarshal makes of the content of the block as a map, including all repeated blocks and labels, and stays nil if the document mentions neither; the other fields of the struct are not affected.", "quantifier": "all struct types, documents, specifications, iteration orders, trees of variables", "why_tests_cant": "documents and data nest without bound; the order in which attributes and blocks are visited varies", "anchors": ["dethcl/unmarshal.go: UnmarshalSpecTree, getFields", "dethcl/mapslice.go: decodeSlice, decodeMap"]}
{"id": "C114", "title": "Structs with generic fields come back", "statement": "A struct with fields of type []any and map[string]any, at every depth, comes back when the text of Marshal is decoded, whatever the order in which Go visits the maps when writing and reading.", "quantifier": "all struct types, data, specifications, iteration orders", "why_tests_cant": "data nests without bound; writing and reading visit maps in random order", "anchors": ["dethcl/marshal.go: getOutlier, marshal", "dethcl/encoding.go: encoding", "dethcl/unmarshal.go: UnmarshalSpecTree", "dethcl/mapslice.go: decodeSlice, decodeMap"]}
{"id": "C115", "title": "Decoding into structs swallows no failure", "statement": "If Unmarshal or UnmarshalSpec into a struct returns no error, then no part of the work has failed on the way, at any depth: neither an UnmarshalHCL method, nor the decoding of an attribute into its field, nor that of a generic field, nor the parsing of an object given for a block. Equivalently: if the result would depend on what a failing part gives, the call returns an error.", "quantifier": "all struct types, methods, documents, specifications, iteration orders, failing parts", "why_tests_cant": "a property of all places where something can fail, at all depths of nesting", "anchors": ["dethcl/unmarshal.go: UnmarshalSpecTree, plusUnmarshalSpecTree, refreshBody"]}
{"id": "C116", "title": "Writing structs swallows no failure", "statement": "If Marshal returns no error, then no MarshalHCL method and no encoding of generic data has failed on the way, at any depth: if the text would depend on what a failing part gives, the call returns an error.", "quantifier": "all struct types, values, methods, iteration orders, failing parts", "why_tests_cant": "a property of all places where something can fail, at all depths of nesting", "anchors": ["dethcl/marshal.go: marshal, marshalLevel, getOutlier"]}
{"id": "C117", "title": "Marks are found at every depth", "statement": "marks.Contains(v, m) is true if and only if v itself or a value inside of it, at any depth, carries the mark m; hence the errors of the conversions show nothing of a value with a sensitive part.", "quantifier": "all values and marks", "why_tests_cant": "values nest without bound", "anchors": ["internal/lang/marks/marks.go: Has, Contains", "internal/lang/funcs/conversion.go: MakeToFunc"]}
{"id": "C118", "title": "The built-in functions and their base directory", "statement": "CoreFunctions never panics; with base directories it contains all functions of files, each reading below the first of them, without it contains none, and all other functions do not depend on the arguments. After DefaultTreeFunctions every built-in name, and no other, has the built-in function, and functions of files read below the working directory, whatever the caller registered.", "quantifier": "all lists of base directories, all functions of the caller, all iteration orders", "why_tests_cant": "arguments and the maps of the caller are unbounded; iteration order varies", "anchors": ["internal/lang/functions.go: CoreFunctions", "utils/tree.go: DefaultTreeFunctions"]}
{"id": "C119", "title": "Decoding JSON swallows no failure", "statement": "If JsonUnmarshal returns no error, then encoding/json has failed on no value on the way, at any depth: if the target would depend on what a failing decoding gives, the call returns an error (or panics).", "quantifier": "all struct types, specifications, references, documents, iteration orders, failing values", "why_tests_cant": "a property of all places where something can fail, at all depths of nesting", "anchors": ["det/unmarshal.go: JsonUnmarshal, handleMapStruct, handleListOrMapStruct, handleSingleStruct, handleMap2Struct"]}
{"id": "C120", "title": "Deletions anywhere in a tree remove only what they name", "statement": "While any number of goroutines call AddNode, AddNodes, DeleteNode, GetNode and FindNode on any nodes of trees, in every interleaving: nothing panics; no node has two parents or is below itself; whenever nobody is inside of AddNode or DeleteNode on a node, it lists no child twice and all its children point up to it; between two such moments the children that stay keep their order, new ones come behind them, a removed node does not come back, and of each name at most as many children are gone as DeleteNode was called with this name; after DeleteNode(n) has returned, the child that was the first of name n when it began is gone.", "quantifier": "all trees, goroutines, calls, interleavings of single reads and writes of cells and slice headers, and choices of append between the old and a new array", "why_tests_cant": "interleavings are unbounded and depend on the scheduler and the allocator", "anchors": ["utils/tree.go: AddNode, AddNodes, DeleteNode, GetNode, FindNode, grep"]}
{"id": "C121", "title": "Results stay right while nodes are deleted", "statement": "In every interleaving with additions and deletions: from a node that AddNodes(tag, names...) or GetNode(tag, names...) has returned one comes back to the receiver through Up over nodes of exactly these names, also after the node was deleted (whenever no AddNode is between making a node and setting its Up), and likewise for FindNode; and if, when GetNode or AddNodes begins, a path of first children with the given names exists, and no DeleteNode names a node of the path or a sibling before it, then the call returns the end of the path.", "quantifier": "all trees, paths, goroutines, calls, interleavings and choices of append", "why_tests_cant": "readers see arrays that are being shifted by deletions at every possible moment", "anchors": ["utils/tree.go: AddNode, AddNodes, DeleteNode, GetNode, FindNode, grep"]}
{"id": "C122", "title": "Additions, deletions and searches never deadlock and can always be completed", "statement": "From every state that is reached, one can go on until all running calls have returned, with only their goroutines and no new calls; a call that cannot go on waits for the lock of one node, whose holder can; after all calls have ended no lock is held.", "quantifier": "all trees, goroutines, calls, interleavings", "why_tests_cant": "absence of deadlock and of endless loops concerns all schedules", "anchors": ["utils/tree.go: AddNode, DeleteNode (mu.Lock, mu.Unlock), FindNode"]}
{"id": "C123", "title": "Using a tree from many goroutines has no data race", "statement": "For all calls of AddNode, AddNodes, DeleteNode, GetNode and FindNode by any number of goroutines: two accesses of the same memory (Downs, a cell of its array, Name, Up), at least one of them a write, are ordered by the happens-before relation of Go (order in a goroutine, and each Unlock before later Locks of the same mutex).", "quantifier": "all trees, goroutines, calls, interleavings and pairs of accesses", "why_tests_cant": "the race detector only sees the schedules that happen in a run", "anchors": ["utils/tree.go: AddNode, DeleteNode, GetNode, FindNode, grep"]}
{"id": "C124", "title": "Calls on a tree look as if they ran one after the other", "statement": "However calls of AddNode, AddNodes, DeleteNode, GetNode and FindNode by many goroutines interleave, what they return and the tree they leave is what the same calls return and leave when they are made one after the other, in some order, by a single goroutine.", "quantifier": "all trees, goroutines, calls, interleavings and choices of append", "why_tests_cant": "all schedules of all calls would have to be compared with all orders", "anchors": ["utils/tree.go: AddNode, AddNodes, DeleteNode, GetNode, FindNode, grep"]}
{"id": "C125", "title": "Additions and deletions in a tree by many goroutines take effect one at a time", "statement": "However calls of AddNode, AddNodes, DeleteNode, GetNode and FindNode by many goroutines interleave, once no lock is held the tree is the one that the additions and removals give when each is made at once, in the order in which the locks were taken: no addition is lost and no removal takes out another child. The removals of a goroutine are its calls of DeleteNode, in the same order; an addition is one that a call of AddNode or AddNodes asked for. If no child was added beside one of the same name, the tree is what calls of AddNode and DeleteNode by a single goroutine give.", "quantifier": "all trees, goroutines, calls, interleavings and choices of append", "why_tests_cant": "a lost update needs a particular interleaving of single reads and writes; tests see few of them", "anchors": ["utils/tree.go: AddNode, AddNodes, DeleteNode"]}
{"id": "C126", "title": "Functions give values of the type they announce", "statement": "Every call of length, alltrue, anytrue, coalesce, index, lookup, matchkeys, one, sum, transpose, list, map, type and of a function made by MakeToFunc, on any number of arguments of consistent types, known or not, ends with an error or with a value of the type that ReturnTypeForValues announces for the same arguments; except for lookup, one and the conversions it is never null. No call ends with a value of another type or with the panic of a refinement. list and map always give an error.", "quantifier": "all functions, arguments and conversions that give the type that was asked for", "why_tests_cant": "the types of arguments are unbounded, and a value of a wrong type breaks only the caller", "anchors": ["internal/lang/funcs/collection.go: all functions", "internal/lang/funcs/conversion.go: MakeToFunc, TypeFunc"]}
{"id": "C127", "title": "Announced types stay right when unknown values become known", "statement": "If arguments that are not wholly known turn out to be others, then the type announced for these fits the type that was announced before.", "quantifier": "all functions, arguments, and ways in which unknown parts turn out", "why_tests_cant": "tests look at one value, not at all values that an unknown one can become", "anchors": ["internal/lang/funcs/collection.go: Type functions", "internal/lang/funcs/conversion.go: MakeToFunc, TypeFunc"]}
{"id": "C128", "title": "Results stay right when unknown values become known", "statement": "If arguments that are not wholly known turn out to be others, and the function gives a value for both, then the first result can turn out to be the second: every known part of it stays.", "quantifier": "all functions, arguments, and ways in which unknown parts turn out", "why_tests_cant": "tests look at one value, not at all values that an unknown one can become", "anchors": ["internal/lang/funcs/collection.go: Impl functions", "internal/lang/funcs/conversion.go: MakeToFunc, TypeFunc"]}
{"id": "C129", "title": "coalesce skips only null and the empty string", "statement": "The result of coalesce is its first argument that is neither null nor the empty string, converted to the announced type; other arguments are not skipped.", "quantifier": "all arguments and conversions", "why_tests_cant": "the arguments and their types are unbounded; the error of a conversion is lost", "anchors": ["internal/lang/funcs/collection.go: CoalesceFunc"]}
{"id": "C130", "title": "Errors of functions on collections are final", "statement": "If a call of a function on arguments that are not wholly known is an error, it is an error however the arguments turn out; null is refused by every parameter that does not take it.", "quantifier": "all functions, arguments, and ways in which unknown parts turn out", "why_tests_cant": "quantifies over all completions of partly unknown arguments", "anchors": ["internal/lang/funcs/collection.go", "internal/lang/funcs/conversion.go: MakeToFunc"]}
{"id": "C131", "title": "What is marked stays hidden", "statement": "If two calls of a function on collections, of a conversion, of type or sensitive have arguments that differ only in parts marked with a mark (at any depth, of the same types), then the results differ only in parts marked with it: a result that depends on a marked value is marked.", "quantifier": "all functions, marks, and pairs of argument lists", "why_tests_cant": "a statement about pairs of calls with arbitrary nested values and marks", "anchors": ["internal/lang/funcs/collection.go: LengthFunc, LookupFunc", "internal/lang/funcs/conversion.go: MakeToFunc, TypeFunc", "internal/lang/funcs/sensitive.go: SensitiveFunc, NonsensitiveFunc"]}
{"id": "C132", "title": "Marks do not change values", "statement": "A call with marked arguments ends as the call with the same arguments without marks: the same value except for marks, or an error for both.", "quantifier": "all functions on collections, conversions, type, sensitive, nonsensitive; all arguments with marks at any depth", "why_tests_cant": "marks can be on any part of values of any depth", "anchors": ["internal/lang/funcs/collection.go: LengthFunc, LookupFunc", "internal/lang/funcs/conversion.go: MakeToFunc, TypeFunc", "internal/lang/funcs/sensitive.go"]}
{"id": "C133", "title": "Where marks come from and where they go", "statement": "Every mark of a result, at any depth, is a mark of an argument or of a part of one, or the mark that the function is there to add; the marks of the arguments themselves are on the result.", "quantifier": "all functions on collections, conversions, type, sensitive, nonsensitive; all arguments with marks at any depth", "why_tests_cant": "marks can be on any part of values of any depth", "anchors": ["internal/lang/funcs/collection.go: LengthFunc, LookupFunc", "internal/lang/funcs/conversion.go: MakeToFunc, TypeFunc", "internal/lang/funcs/sensitive.go"]}
{"id": "C134", "title": "A reference means what it refers to", "statement": "In a document that is decoded into structs, a reference to an attribute (by the types and labels of the blocks around it and its name, joined by dots, with or without var. in front) means the same as the value of that attribute: writing the value instead of the reference gives exactly the same call, with the same target, outcome, variables, ref and specification.", "quantifier": "all documents, struct types, specifications, ref, iteration orders of maps, sets of replaced references at any depth", "why_tests_cant": "documents of any depth with references at any place, and all iteration orders of Go maps", "anchors": ["dethcl/unmarshal.go: UnmarshalSpecTree", "utils/tree.go: Variables, AddItem, AddNodes, GetNode", "utils/util.go: ExpressionToCty"]}
{"id": "C135", "title": "A reference in generic data means what it refers to", "statement": "In a document that is decoded into a map[string]interface{}, a reference to an attribute (by the types of the blocks around it, each with its labels or its number, and its name, joined by dots, with or without var. in front) means the same as the value of that attribute: writing the value instead of the reference gives exactly the same map or error and the same variables.", "quantifier": "all documents, targets, trees in ref, iteration orders of maps, sets of replaced references at any depth", "why_tests_cant": "documents of any depth with references at any place, and all iteration orders of Go maps", "anchors": ["dethcl/mapslice.go: decodeBody, expressionToNative, decodeSlice, decodeObjectConsExpr", "dethcl/unmarshal.go: UnmarshalSpec", "utils/tree.go: Variables, AddItem, AddNode"]}
{"id": "C136", "title": "Without references the tree of variables does not matter", "statement": "Decoding text whose expressions are literals into a map[string]interface{} or a []interface{} gives the same result or failure for every tree of variables in ref, also for none.", "quantifier": "all literal texts, targets and trees", "why_tests_cant": "all trees and documents", "anchors": ["dethcl/mapslice.go: decodeMap, decodeSlice, decodeBody, expressionToNative", "dethcl/unmarshal.go: UnmarshalSpec"]}
{"id": "C137", "title": "The Go types of numbers do not matter to Marshal", "statement": "Marshal of generic data writes the same text for equal numbers of different Go types, such as the float64 that encoding/json gives and the int that yaml.v3 gives; so a JSON text gives the same HCL text whether it is converted at once or by way of YAML.", "quantifier": "all generic data of any nesting, all pairs that differ only in the types of numbers", "why_tests_cant": "all numbers at all places of data of any depth", "anchors": ["dethcl/encoding.go: shortDirect, loopHash, encoding", "utils/util.go: CtyNumberToNative", "convert/convert.go: JSONToYAML, YAMLToHCL, JSONToHCL"]}
{"id": "C138", "title": "When Marshal of generic data fails", "statement": "Marshal of generic data fails exactly if some part of the data, at any depth, is a floating point number that is negative and not whole, or whole and beyond 64 bits.", "quantifier": "all generic data of any nesting and iteration order", "why_tests_cant": "an equivalence over all data", "anchors": ["dethcl/encoding.go: shortDirect, loopHash, encoding", "utils/util.go: CtyNumberToNative"]}
{"id": "C139", "title": "Round trips of generic data settle", "statement": "After data has been written by Marshal and read by Unmarshal once, writing and reading it again succeeds and gives exactly the same data.", "quantifier": "all generic data and iteration orders", "why_tests_cant": "all data and repeated round trips", "anchors": ["dethcl/encoding.go: encoding, loopHash, shortDirect", "dethcl/mapslice.go: decodeMap, decodeBody", "dethcl/unmarshal.go: Unmarshal"]}
{"id": "C140", "title": "Variables shows what stays while nodes are deleted", "statement": "While other goroutines add and delete nodes and items, Variables shows every item that is there from its beginning to its end, at its place, if no node on the way is deleted and nothing hides the place.", "quantifier": "all trees, all interleavings of any number of goroutines calling AddNodes, GetNode, FindNode, DeleteNode, AddItem, DeleteItem and Variables", "why_tests_cant": "all schedules, down to single reads of the cells of the slices", "anchors": ["utils/tree.go: Variables, DeleteNode, AddNode"]}
{"id": "C141", "title": "Variables invents nothing and cannot be stopped by deletions", "statement": "Whatever is added or deleted meanwhile, Variables does not panic and never waits; every item in its result was stored at that node at some moment of the call, and the nodes on the way were children at some moment of the call.", "quantifier": "all trees, all interleavings of any number of goroutines", "why_tests_cant": "all schedules, down to single reads of the cells of the slices", "anchors": ["utils/tree.go: Variables, DeleteNode, AddNode"]}
{"id": "C142", "title": "HCL to JSON or YAML and back keeps the data", "statement": "If an HCL text is converted to JSON or YAML and the result back to HCL, the new text is read as the same data as the first one, and converting it again gives the same JSON or YAML text.", "quantifier": "all HCL texts in the class of C47 without empty lists, all iteration orders, all data of any nesting", "why_tests_cant": "the composition of four conversions over recursive data of any depth and order; the tests compare three files", "anchors": ["convert/convert.go: HCLToJSON, JSONToHCL, HCLToYAML, YAMLToHCL", "dethcl/encoding.go: encoding", "dethcl/mapslice.go: decodeMap"]}
{"id": "C143", "title": "timeadd reads durations as documented", "statement": "A duration of timeadd is a sequence of decimal numbers with units ns, us or \u00b5s, ms, s, m or h, with an optional sign in front; the timestamp is moved by exactly the signed sum. Durations whose sum is no int64 of nanoseconds and all other texts are refused.", "quantifier": "all texts, all timestamps, all locations of the machine", "why_tests_cant": "all texts of any length, with overflow and rounding; the tests use four durations", "anchors": ["internal/lang/funcs/datetime.go: TimeAddFunc, TimeAdd"]}
{"id": "C144", "title": "dethcl and gohcl read the same struct tags", "statement": "For every struct tag, the name and kind that dethcl reads itself (tag2, which decides what is a label, a block or optional and under which name it is stored and written) are those that gohcl, which decodes and encodes the ordinary fields of the same struct, reads with reflect.StructTag; no tag makes dethcl panic.", "quantifier": "all struct tags (any bytes)", "why_tests_cant": "tags are arbitrary texts; the tests use tags with one hcl pair and values without spaces only", "anchors": ["dethcl/util.go: tag2, hcltag", "dethcl/unmarshal.go: loopFields, getTagref, getLabels", "dethcl/marshal.go: getFields"]}
{"id": "C145", "title": "Pointers to basic values are written and read back", "statement": "A field of type pointer to a string, number or boolean is written by Marshal such that Unmarshal of the text gives a pointer to the same value; nil is left out and stays nil, whether or not the field is marked optional; a pointer to a zero value is not lost.", "quantifier": "all struct types with such a field, all values, all iteration orders", "why_tests_cant": "values are unbounded; the tests contain no pointers to basic values", "anchors": ["dethcl/marshal.go: marshal (the cases before the struct), getFields, getOutlier", "dethcl/unmarshal.go: decodeBody, loopFields"]}
{"id": "C146", "title": "Unmarshal adds the document to the target or reports an error", "statement": "For every text and every target that is not a struct, Unmarshal either returns an error and leaves the target as it is, or adds the document: in a map, the entries of the document are set and the others stay; to a slice, the elements are appended. It never panics and never succeeds without reading the document.", "quantifier": "all texts, contents of maps and slices, kinds of targets, iteration orders", "why_tests_cant": "texts, contents and kinds of targets are unbounded, and the panics must be characterised exactly", "anchors": ["dethcl/unmarshal.go: Unmarshal, UnmarshalSpecTree"]}
{"id": "C147", "title": "Log is accurate where the logarithm exists", "statement": "For known numbers that a float64 can represent: the Log of a positive number to a positive base other than 1 is the logarithm with a relative error of at most 2^-50; negative numbers and bases, 1 to the base 1, and zero or infinity to the base zero or infinity are refused; in the remaining cases the answer is an infinity with the sign of the limit, or zero. A null argument is refused; for an unknown one the answer is unknown.", "quantifier": "all numbers and bases, all natural logarithms with an error of at most one unit in the last place", "why_tests_cant": "numbers are unbounded, and the error involves real logarithms", "anchors": ["internal/lang/funcs/number.go: LogFunc, Log"]}
{"id": "C148", "title": "Pow refuses only fractional powers of negative numbers", "statement": "For known numbers that a float64 can represent: Pow returns an error exactly for a power that is not an integer of a negative number; zero to a negative power is infinite, anything to the power of zero is 1 and to the power of one is itself; an infinite power is the limit of the powers and a power of an infinity is an infinity or zero, negative only for odd powers of minus infinity; otherwise the answer is that of math.Pow.", "quantifier": "all numbers and powers, all values of math.Pow outside its special cases", "why_tests_cant": "numbers are unbounded", "anchors": ["internal/lang/funcs/number.go: PowFunc, Pow"]}
{"id": "C149", "title": "What the functions on prefixes return can be used again", "statement": "The text that cidrhost, cidrsubnet, cidrsubnets or cidrnetmask returns is the text of an address or prefix of the same kind inside of the given prefix (of its mask for cidrnetmask), so it is accepted where such a text is an argument; a host of a subnet is the host of the prefix with the sum of the numbers. Numbers that are not whole are refused.", "quantifier": "all prefixes, numbers and lists of sizes", "why_tests_cant": "2^128 addresses and as many texts, with the shortening of runs of zeros; the tests compare a few texts", "anchors": ["internal/lang/funcs/cidr.go: CidrHostFunc, CidrNetmaskFunc, CidrSubnetFunc, CidrSubnetsFunc", "internal/ipaddr/ip.go: ParseCIDR, ParseIP"]}
{"id": "C150", "title": "Identifiers are UUIDs and name-based ones are determined by namespace and name", "statement": "uuid returns the text of a UUID of version 4 and uuidv5 that of a UUID of version 5. uuidv5 accepts its four names and texts of UUIDs as namespaces and refuses all others; how a namespace is written does not matter; results of uuid and uuidv5 are accepted as namespaces. Two calls of uuidv5 give the same identifier only if SHA-1 of namespace and name agrees in the 122 bits that are kept.", "quantifier": "all random bytes, namespaces, names and marks", "why_tests_cant": "2^128 identifiers in several spellings; the tests look at a few and check uuid only for being different each time", "anchors": ["internal/lang/funcs/crypto.go: UUIDFunc, UUIDV5Func"]}
{"id": "C151", "title": "bcrypt uses the cost that is asked for", "statement": "bcrypt answers exactly for texts of at most 72 bytes with at most one cost, a whole number that bcrypt allows; the hash says the cost that was asked for, or 10 if none was; an error does not depend on the text but for its length.", "quantifier": "all texts, salts and lists of costs", "why_tests_cant": "all numbers, also negative, fractional and infinite ones, can be costs; the tests use one", "anchors": ["internal/lang/funcs/crypto.go: BcryptFunc"]}
{"id": "C152", "title": "NewStruct uses every map it is given", "statement": "NewStruct(name, maps...) returns a specification with the fields of all the maps, or an error if one of their names or values is not allowed; no call panics.", "quantifier": "all names and all slices of maps, also nil and empty ones", "why_tests_cant": "the tests pass one map; slices of other lengths are legal calls", "anchors": ["utils/common.go: NewStruct"]}
{"id": "C153", "title": "Null, unknown and marked arguments of scalar functions", "statement": "A function on strings, numbers, files, times or addresses answers only if it gets the right number of arguments, of the right types, none of them null. If one that it needs is unknown, the result is unknown and of the type of the results; if all are known, the call ends as it would without marks. In all cases the marks of the result are those of the arguments, and no call panics or gives a result of another type.", "quantifier": "all functions of cidr.go, crypto.go, datetime.go, encoding.go, filesystem.go (without templatefile), number.go and string.go; all argument lists with null, unknown and marked values; all implementations", "why_tests_cant": "the flags of the parameters decide for all combinations of null, unknown and marked arguments; tests use few", "anchors": ["internal/lang/funcs/cidr.go", "internal/lang/funcs/crypto.go", "internal/lang/funcs/datetime.go", "internal/lang/funcs/encoding.go: Base64DecodeFunc", "internal/lang/funcs/filesystem.go: MakeFileFunc, MakeFileExistsFunc, MakeFileSetFunc", "internal/lang/funcs/number.go: ParseIntFunc", "internal/lang/funcs/string.go: StartsWithFunc"]}
{"id": "C154", "title": "Numbers at the limits of the formats", "statement": "A number of HCL becomes the native number of the same value or the nearest one; only infinities become infinite; a number out of range is an error; no number makes the library panic; what is written for a number can be read again.", "quantifier": "all rational numbers, infinities and NaN; float32 and float64 with their limits, subnormal numbers included", "why_tests_cant": "the conversion decides by the direction of three roundings; where the limits lie and that two roundings never pass a number of the smaller format needs an argument for all numbers", "anchors": ["utils/util.go: CtyNumberToNative, NativeToCty", "dethcl/encoding.go: shortDirect"]}
{"id": "C155", "title": "Null, unknown and marked arguments of templatefile", "statement": "templatefile gives the value of the template with every mark of its arguments; for a path or variables that are not known it gives an unknown value with their marks and reads no file; null is refused; it never fails because an argument is marked, and results of calls that differ only in what is marked differ only in what is marked.", "quantifier": "all templates, all paths and variables: null, unknown, marked at any depth, of any type", "why_tests_cant": "marks and unknown values may be anywhere in the arguments, and the claim about hidden values compares two calls", "anchors": ["internal/lang/funcs/filesystem.go: MakeTemplateFileFunc"]}
{"id": "C156", "title": "Marshal of data that contain themselves or are shared", "statement": "Marshal returns for every value built from maps, slices and basic values, with a stack proportional to the depth of the value; a map or slice that is at several places is written at each of them as if it were a copy.", "quantifier": "all memories of maps and slices, all values in them, all orders of map iteration at each visit, all stack sizes", "why_tests_cant": "a test sees one value and one stack; that a value in a cycle never ends, whatever the stack, and that sharing never shows in the text, are claims about all memories", "anchors": ["dethcl/encoding.go: encoding, loopHash, shortDirect", "dethcl/marshal.go: Marshal, marshalLevel"]}
{"id": "C157", "title": "Lists and objects that are parsed again read the same", "statement": "Unmarshal into a map or slice cuts the text of each nested list and object out of its file and parses it again behind `x = `; this ends for every text, and the result, an error or a panic included, is that of evaluating the syntax tree of the whole text once. The text of each list or object in a document, wherever it is, is itself a text that Unmarshal reads into a slice or map with the same elements.", "quantifier": "all texts of the modelled part of HCL, all targets, all evaluations of variables, all map orders", "why_tests_cant": "that the range of every nested list ends at its own bracket, with brackets in strings and any nesting, and that what surrounds it (newlines count outside of lists, not inside) never changes how it reads, is a claim about all texts", "anchors": ["dethcl/mapslice.go: decodeSlice, decodeMap, decodeObjectConsExpr, expressionToNative"]}
{"id": "C158", "title": "Blocks that are parsed again are the same blocks", "statement": "Unmarshal into a struct cuts the text between the braces of each block out of its file and parses it as a file, cuts the blocks inside out of that, and so on. For every document this ends, each of these texts parses, and the blocks and attributes found are those of the syntax tree of the whole document; a text that does not parse is refused in the same way. Read into a generic map, the text of a block gives what the block gives, unless it is empty.", "quantifier": "all texts of the modelled part of HCL, all blocks at all depths", "why_tests_cant": "braces in strings and objects, newlines and nesting of any depth must never move the end of a block or change how its text reads outside of its document; a test sees single documents", "anchors": ["dethcl/unmarshal.go: getBlockBytes, plusUnmarshalSpecTree, UnmarshalSpecTree", "dethcl/mapslice.go: decodeMap"]}
{"id": "C159", "title": "Specifications that are shared or refer to themselves", "statement": "A specification passed to JsonUnmarshal is a pointer, and the structs in it may be shared or refer back to each other, as a recursive type asks for. For every document JsonUnmarshal returns, and does what it does with the specification written out as a tree to the depth of the document; a specification without cycles does what the tree it stands for does, whatever is shared.", "quantifier": "all specifications in memory, with any sharing and cycles; all documents, types, targets and registries", "why_tests_cant": "that recursion ends for every cyclic specification and document, and that sharing is never seen, are statements about all graphs; a test has one", "anchors": ["det/unmarshal.go: JsonUnmarshal, handleMapStruct, handleListOrMapStruct, handleSingleStruct, handleMap2Struct"]}
{"id": "C160", "title": "Recursive types can be decoded with a specification that refers to itself", "statement": "For a recursive Go type and a specification that refers to itself, JsonUnmarshal decodes the finite documents of the type: where the recursion ends the document leaves the field out.", "quantifier": "all recursive specifications, by single fields, lists, maps and two-label maps, with cycles of any length; all documents", "why_tests_cant": "that no document at all is decoded by a cycle of single fields is a statement about all documents of any depth", "anchors": ["det/unmarshal.go: JsonUnmarshal, handleSingleStruct"]}
{"id": "C161", "title": "A specification can be used again", "statement": "The specification passed to dethcl.UnmarshalSpec can be passed again, for further documents of the same type: each document is decoded as it would be with the specification as it was at first, whatever the documents before were.", "quantifier": "all specifications, types, targets and registries; all sequences of documents", "why_tests_cant": "a test uses a specification once; what a call leaves in it for fields that it does not name, and what that does to later calls, depends on every earlier document", "anchors": ["dethcl/unmarshal.go: UnmarshalSpec, UnmarshalSpecTree, loopFields"]}
{"id": "C162", "title": "Descriptions may share or contain maps", "statement": "NewStruct returns for every description made of Go maps, also when a map occurs several times or contains itself: it gives the specification or the error that it gives for the description with its maps copied out.", "quantifier": "all memories of maps and structs, all descriptions, all stack sizes", "why_tests_cant": "tests write descriptions as literals, which are trees; sharing and cycles are properties of the memory", "anchors": ["utils/common.go: NewStruct, NewValue, newSingleStruct"]}
{"id": "C163", "title": "A specification is independent of what it was made from", "statement": "NewStruct changes no struct that existed before, and the specification that it returns does not change when something that existed before is changed afterwards.", "quantifier": "all memories, all descriptions, all later changes", "why_tests_cant": "a test reads the specification right after making it; independence is about every later write through every other pointer", "anchors": ["utils/common.go: NewStruct, NewValue"]}
{"id": "C164", "title": "What decoding leaves in nested specifications changes nothing", "statement": "Decoding a block writes entries into the field map of the specification of its struct, which other blocks and later calls use again. No document is decoded to another target, registry or tree because of such entries: every call does what it would do with the field map as it was made.", "quantifier": "all documents, types, targets, registries and trees; all histories of the nested field maps", "why_tests_cant": "which entries a block finds depends on all blocks decoded before, in an order that Go chooses at random; a test sees one history", "anchors": ["dethcl/unmarshal.go: UnmarshalSpecTree (L102-108), loopFields (L621, L645, L668)"]}
{"id": "C165", "title": "Only the classes that the specification names count", "statement": "UnmarshalSpec gives the same target, outcome, variables and specification for any two registries ref that hold the same values for the class names in the specification, at whatever level; other entries, also those under the names of Go types, are never used.", "quantifier": "all documents, types, targets, specifications, trees and pairs of registries; calls that succeed or fail", "why_tests_cant": "that an entry is never used is a statement about all documents and all values of the entry; a test tries one", "anchors": ["dethcl/unmarshal.go: UnmarshalSpec, loopFields, L265-276, L327-336, L376-383, L407-415"]}
{"id": "C166", "title": "A class stands for the value registered under its name", "statement": "A struct that is made for a block begins as a copy of the value that the caller registered in ref under the name of its class, and a field without specification gets its own type, whatever other fields and types there are.", "quantifier": "all documents, types, specifications and registries", "why_tests_cant": "entries of ref are replaced by other fields of the same or of nested structs, depending on their types and names; a test has one set of types", "anchors": ["dethcl/unmarshal.go: loopFields (L614-669), UnmarshalSpecTree (L265-282, L376-394)"]}
{"id": "C167", "title": "The class of a block with two labels is listed under its first label", "statement": "With a specification for a field of type map[[2]string]T, a block whose first label is listed in the specification is decoded with a class that is listed with that label: the one for its second label, or else another one listed with the same first label.", "quantifier": "all documents, specifications and iteration orders", "why_tests_cant": "the default class depends on the iteration order of a Go map, which differs from run to run", "anchors": ["dethcl/unmarshal.go: UnmarshalSpecTree (L230-L302)"]}
{"id": "C168", "title": "Built-in functions can be described", "statement": "WithDescription(name, f) does not panic for any function f that CoreFunctions has under that name, with any base directory: DescriptionList has an entry for it with one description for each parameter. The function that is returned does what f does.", "quantifier": "all built-in functions, base directories and arguments", "why_tests_cant": "the list and the parameters of the functions are in different files, nothing ties them together; the claim is about every function and everything that it can be called with", "anchors": ["internal/lang/funcs/descriptions.go: DescriptionList, WithDescription", "internal/lang/functions.go: CoreFunctions"]}
{"id": "C169", "title": "Specifications consist of UTF-8 strings", "statement": "Every string in a message that NewStruct returns without an error (class names, field names and labels, at every depth) is valid UTF-8, as proto3 demands of messages that are sent.", "quantifier": "all names and descriptions", "why_tests_cant": "the claim is about every string at every depth of every description; the code checks field names only, so tests with field names pass", "anchors": ["utils/common.go: NewStruct, NewValue, newMapStruct, newMap2Struct", "utils/determined.pb.go: Struct, MapStruct, Map2Struct"]}
{"id": "C170", "title": "Functions of package funcs are called by their own names", "statement": "Every function that package funcs exports (AbsPathFunc, LogFunc, ...) is what CoreFunctions has under its name in small letters (abspath, log, ...), and under no other name, with any base directory.", "quantifier": "all exported functions, names and base directories", "why_tests_cant": "tests call the Go variables directly; which function a document gets for a name is another matter, and entries that are exchanged or missing in the table are seen by no test of the functions", "anchors": ["internal/lang/functions.go: CoreFunctions", "internal/lang/funcs: all exported function variables"]}
{"id": "C171", "title": "Fields that a specification names are read from the document", "statement": "After JsonUnmarshal with a specification succeeds, every exported field that it decodes holds what follows from the document alone: whatever the target held before the call, the field is the same afterwards.", "quantifier": "all struct types, specifications, documents and earlier contents of the target", "why_tests_cant": "compares runs with all possible earlier contents of the target; tests begin with new targets, for which a field that is skipped looks like one that is absent", "anchors": ["det/unmarshal.go: JsonUnmarshal", "det/util.go: loopFields", "utils/common.go: NewValue"]}
