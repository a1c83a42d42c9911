{
 "claims": [
  {
   "property": "C01",
   "status": "proved",
   "theorems": [
    "Verif.Spec.C01_shorthand",
    "Verif.Spec.C01_shorthand_value"
   ],
   "note": ""
  },
  {
   "property": "C02",
   "status": "proved",
   "theorems": [
    "Verif.Spec.C02_accepts_iff",
    "Verif.Spec.C02_result_iff",
    "Verif.Spec.C02_newStruct"
   ],
   "note": ""
  },
  {
   "property": "C03",
   "status": "partial",
   "theorems": [
    "Verif.Spec.C03_entry_lost",
    "Verif.Spec.C03_survives_iff_last",
    "Verif.Spec.C03_keeps_every_entry_partial"
   ],
   "note": "The code violates the claim when two entries share the first label (C03_entry_lost); C03_survives_iff_last says exactly which entries survive."
  },
  {
   "property": "C04",
   "status": "partial",
   "theorems": [
    "Verif.Spec.C04_order_matters",
    "Verif.Spec.C04_acceptance_order_independent",
    "Verif.Spec.C04_order_independent_partial"
   ],
   "note": "The result depends on map iteration order for two-label maps sharing a first label (C04_order_matters); proved otherwise."
  },
  {
   "property": "C05",
   "status": "proved",
   "theorems": [
    "Verif.Tree.C05_sibling_names_unique",
    "Verif.Tree.C05_existing",
    "Verif.Tree.C05_new",
    "Verif.Tree.C05_progress",
    "Verif.Tree.C05_idempotent",
    "Verif.Tree.C05_newTree"
   ],
   "note": ""
  },
  {
   "property": "C06",
   "status": "partial",
   "theorems": [
    "Verif.Tree.C06_empty_tag_counterexample",
    "Verif.Tree.C06_get_after_add_partial",
    "Verif.Tree.C06_get_iff"
   ],
   "note": "False for the empty tag (counterexample proved); proved for all other tags and any later history not deleting an edge of the path."
  },
  {
   "property": "C07",
   "status": "proved",
   "theorems": [
    "Verif.Tree.C07_delete_exact",
    "Verif.Tree.C07_get_nil"
   ],
   "note": "GetNode of the empty name never is nil, see C06."
  },
  {
   "property": "C08",
   "status": "partial",
   "theorems": [
    "Verif.Tree.C08_sound",
    "Verif.Tree.C08_incomplete",
    "Verif.Tree.C08_complete_partial",
    "Verif.Tree.C08_single"
   ],
   "note": "Soundness and single-name completeness proved; multi-name completeness refuted, proved when intermediate names are unambiguous."
  },
  {
   "property": "C09",
   "status": "proved",
   "theorems": [
    "Verif.Tree.C09_lookup",
    "Verif.Tree.C09_root_var",
    "Verif.Tree.C09_path",
    "Verif.Tree.C09_reserved_invisible",
    "Verif.Tree.C09_addItem",
    "Verif.Tree.C09_deleteItem"
   ],
   "note": ""
  },
  {
   "property": "C10",
   "status": "partial",
   "theorems": [
    "Verif.TreeConc.C10_duplicate_children",
    "Verif.TreeConc.C10_returned_is_child_partial",
    "Verif.TreeConc.C10_children_kept",
    "Verif.TreeConc.C10_no_panic",
    "Verif.TreeConc.C10_lock_released"
   ],
   "note": "Two concurrent AddNode calls of one name can create two children (C10_duplicate_children); the returned node always is a child, nothing is lost, no panic, locks released."
  },
  {
   "property": "C11",
   "status": "partial",
   "theorems": [
    "Verif.TreeConc.C11_missed_read",
    "Verif.TreeConc.C11_reader_finds_partial",
    "Verif.TreeConc.C11_returned_name",
    "Verif.TreeConc.C11_delete_alone"
   ],
   "note": "A reader overlapping a DeleteNode of another child can miss an existing child (C11_missed_read); proved when the deleted child is not before the searched one."
  },
  {
   "property": "C12",
   "status": "proved",
   "theorems": [
    "Verif.IPAddr.C12_parseIPv4",
    "Verif.IPAddr.C12_parseIP"
   ],
   "note": ""
  },
  {
   "property": "C13",
   "status": "proved",
   "theorems": [
    "Verif.IPAddr.C13_parseIPv6",
    "Verif.IPAddr.C13_parseIP",
    "Verif.IPAddr.C13_unambiguous"
   ],
   "note": ""
  },
  {
   "property": "C14",
   "status": "proved",
   "theorems": [
    "Verif.IPAddr.C14_ipv4",
    "Verif.IPAddr.C14_ipv6",
    "Verif.IPAddr.C14_ipv6_compressed",
    "Verif.IPAddr.C14_groups_injective"
   ],
   "note": ""
  },
  {
   "property": "C15",
   "status": "proved",
   "theorems": [
    "Verif.IPAddr.C15_parseCIDR",
    "Verif.IPAddr.C15_contains"
   ],
   "note": ""
  },
  {
   "property": "C16",
   "status": "proved",
   "theorems": [
    "Verif.IPAddr.C16_no_panic"
   ],
   "note": ""
  },
  {
   "property": "C17",
   "status": "proved",
   "theorems": [
    "Verif.Cidr.C17_disjoint_inside"
   ],
   "note": "go-cidr and net are external; modelled from memory of their source, not confirmed by reading or running it."
  },
  {
   "property": "C18",
   "status": "partial",
   "theorems": [
    "Verif.Cidr.C18_exact",
    "Verif.Cidr.C18_zero_prefix_fails",
    "Verif.Cidr.C18_after_mapped_fails",
    "Verif.Cidr.C18_fits_succeeds_partial",
    "Verif.Cidr.C18_no_panic"
   ],
   "note": "C18_exact characterises success; the claim is false for prefixes starting at 0.0.0.0 or :: and around the IPv4-mapped range; these two findings rest on the recalled go-cidr source and were not confirmed by running it."
  },
  {
   "property": "C19",
   "status": "partial",
   "theorems": [
    "Verif.Cidr.C19_host_in_range",
    "Verif.Cidr.C19_host_wraps",
    "Verif.Cidr.C19_host_mapped",
    "Verif.Cidr.C19_host_out_of_range_partial",
    "Verif.Cidr.C19_host_refused",
    "Verif.Cidr.C19_subnet_in_range",
    "Verif.Cidr.C19_subnet_out_of_range_partial",
    "Verif.Cidr.C19_negative_netnum",
    "Verif.Cidr.C19_not_a_number"
   ],
   "note": "In-range numbers proved; out-of-range failure refuted for numbers of 2^64 and more, negative netnums and IPv4-mapped prefixes (resting on the recalled go-cidr source, not confirmed by running it)."
  },
  {
   "property": "C27",
   "status": "proved",
   "theorems": [
    "Verif.Cidr.C27_netmask"
   ],
   "note": ""
  },
  {
   "property": "C33",
   "status": "proved",
   "theorems": [
    "Verif.Det.C33_no_spec"
   ],
   "note": ""
  },
  {
   "property": "C34",
   "status": "proved",
   "theorems": [
    "Verif.Det.C34_list",
    "Verif.Det.C34_list_absent"
   ],
   "note": ""
  },
  {
   "property": "C35",
   "status": "proved",
   "theorems": [
    "Verif.Det.C35_map"
   ],
   "note": ""
  },
  {
   "property": "C36",
   "status": "proved",
   "theorems": [
    "Verif.Det.C36_map2"
   ],
   "note": ""
  },
  {
   "property": "C37",
   "status": "proved",
   "theorems": [
    "Verif.Det.C37_single"
   ],
   "note": ""
  },
  {
   "property": "C38",
   "status": "proved",
   "theorems": [
    "Verif.Det.C38_origin",
    "Verif.Det.C38_single",
    "Verif.Det.C38_list",
    "Verif.Det.C38_map",
    "Verif.Det.C38_map2"
   ],
   "note": "Origin is: a template in ref, or a struct type reachable from the target type or from the type of a template."
  },
  {
   "property": "C39",
   "status": "partial",
   "theorems": [
    "Verif.Det.C39_unspecified",
    "Verif.Det.C39_fields",
    "Verif.Det.C39_skipped",
    "Verif.Det.C39_as_json_partial",
    "Verif.Det.C39_reset_violated"
   ],
   "note": "False when the document lacks a field that had a value: it is reset to zero (C39_reset_violated); equal to json.Unmarshal when the field was zero or its decoding does not depend on the old value, given that json.Unmarshal decodes field by field (PlainLike)."
  },
  {
   "property": "C40",
   "status": "partial",
   "theorems": [
    "Verif.Det.C40_prefix_partial",
    "Verif.Det.C40_document",
    "Verif.Det.C40_overwritten_violated"
   ],
   "note": "False: fields before the failing one are overwritten (C40_overwritten_violated). Proved: exactly which fields are unchanged."
  },
  {
   "property": "C41",
   "status": "partial",
   "theorems": [
    "Verif.Det.C41_deterministic_partial",
    "Verif.Det.C41_equal_partial",
    "Verif.Det.C41_list_on_map_violated"
   ],
   "note": "False for a map field specified by a list of classes (C41_list_on_map_violated); proved for all iteration orders otherwise. Independence of the order of ref is C43."
  },
  {
   "property": "C42",
   "status": "partial",
   "theorems": [
    "Verif.Det.C42_typed",
    "Verif.Det.C42_no_panic_partial",
    "Verif.Det.C42_value_slice_violated",
    "Verif.Det.C42_promoted_violated"
   ],
   "note": "Well-typedness always holds. Panics remain for slices/maps of struct values and for equal promoted names (witnesses proved); proved absent otherwise."
  },
  {
   "property": "C43",
   "status": "partial",
   "theorems": [
    "Verif.Det.C43_prototypes_partial",
    "Verif.Det.C43_fresh"
   ],
   "note": "The result depends on templates only through their type. Aliasing between results and templates is not represented in the model (values are trees); that the content starts from a zero instance is part of C34-C37."
  },
  {
   "property": "C44",
   "status": "partial",
   "theorems": [
    "Verif.Det.C44_sound",
    "Verif.Det.C44_exact_partial",
    "Verif.Det.C44_clash_violated",
    "Verif.Det.C44_hidden_violated"
   ],
   "note": "Sound always; exact when every reachable struct has a name, no two share one and there is no pointer to a pointer; refuted otherwise (two witnesses)."
  },
  {
   "property": "C45",
   "status": "partial",
   "theorems": [
    "Verif.Det.C45_terminates_partial",
    "Verif.Det.C45_slice_violated",
    "Verif.Det.C45_iface_violated"
   ],
   "note": "Terminates on every finite type graph without a type containing itself outside a struct; does not terminate on `type T []T` (witnesses proved)."
  },
  {
   "property": "C46",
   "status": "proved",
   "theorems": [
    "Verif.Det.C46_explicit"
   ],
   "note": ""
  },
  {
   "property": "C30",
   "status": "partial",
   "theorems": [
    "Verif.Hcl.C30_rounding",
    "Verif.Hcl.C30_rounding_tie",
    "Verif.Hcl.C30_int",
    "Verif.Hcl.C30_value_partial",
    "Verif.Hcl.C30_float32",
    "Verif.Hcl.C30_violated",
    "Verif.Hcl.C30_errors"
   ],
   "note": "False for 0.1 (becomes a float32 of another value) and -0.5 (error); characterised exactly for float64 numbers. cty and math/big are external, recalled from memory."
  },
  {
   "property": "C31",
   "status": "partial",
   "theorems": [
    "Verif.Hcl.C31_round_trip_partial",
    "Verif.Hcl.C31_list",
    "Verif.Hcl.C31_object",
    "Verif.Hcl.C31_violated"
   ],
   "note": "False in general (null members dropped, floats rounded); proved for data in the class Plain."
  },
  {
   "property": "C49",
   "status": "partial",
   "theorems": [
    "Verif.Hcl.C49_partial",
    "Verif.Hcl.C49_object",
    "Verif.Hcl.C49_list",
    "Verif.Hcl.C49_violated"
   ],
   "note": "False: blank text and numeric object keys panic. Proved otherwise for the modelled subset of HCL (the parser is external and recalled from memory)."
  },
  {
   "property": "C50",
   "status": "partial",
   "theorems": [
    "Verif.Hcl.C50_keys",
    "Verif.Hcl.C50_attr",
    "Verif.Hcl.C50_unlabelled",
    "Verif.Hcl.C50_labelled_partial",
    "Verif.Hcl.C50_list",
    "Verif.Hcl.C50_object",
    "Verif.Hcl.C50_literals",
    "Verif.Hcl.C50_target",
    "Verif.Hcl.C50_slice",
    "Verif.Hcl.C50_violated"
   ],
   "note": "False if one type is used with different numbers of labels; proved otherwise."
  },
  {
   "property": "C51",
   "status": "proved",
   "theorems": [
    "Verif.Hcl.C51_body",
    "Verif.Hcl.C51_unmarshal"
   ],
   "note": "Values of variables are a parameter, as the property excludes references between attributes."
  },
  {
   "property": "C47",
   "status": "partial",
   "theorems": [
    "Verif.Hcl.C47_partial",
    "Verif.Hcl.C47_list",
    "Verif.Hcl.C47_injective",
    "Verif.Hcl.C47_violated",
    "Verif.Hcl.C47_violated_escape",
    "Verif.Hcl.C47_violated_lost",
    "Verif.Hcl.C47_violated_number",
    "Verif.HclS.C47_tree"
   ],
   "note": "False as stated (four witnesses); proved for data whose keys are names, whose strings need no escapes, whose numbers have at most six decimals, with no zero values in lists and with uniform depth under labels. The HCL lexer and parser are external, recalled from memory."
  },
  {
   "property": "C48",
   "status": "partial",
   "theorems": [
    "Verif.Hcl.C48_partial",
    "Verif.Hcl.C48_violated",
    "Verif.Hcl.C48_violated_nested"
   ],
   "note": "False as stated (keys that are no names, quotes in strings, maps nested in list elements); proved for data whose keys are names and strings need no escapes, with the exact syntax tree."
  },
  {
   "property": "C69",
   "status": "partial",
   "theorems": [
    "Verif.Hcl.C69_partial",
    "Verif.Hcl.C69_violated"
   ],
   "note": "False for empty lists, which come back as null; proved for data as in C47 without empty lists. encoding/json is a parameter."
  },
  {
   "property": "C70",
   "status": "proved",
   "theorems": [
    "Verif.Hcl.C70_done",
    "Verif.Hcl.C70_fail",
    "Verif.Hcl.C70_crash"
   ],
   "note": "encoding/json, yaml.v3 and the file system are parameters."
  },
  {
   "property": "C23",
   "status": "proved",
   "theorems": [
    "Verif.Funcs.C23_encode",
    "Verif.Funcs.C23_decode",
    "Verif.Funcs.C23_inverse"
   ],
   "note": "encoding/base64 is modelled as recalled; Unicode normalisation by cty is a parameter that fixes ASCII text, and the strings meant are the normalised ones (cty strings are)."
  },
  {
   "property": "C24",
   "status": "proved",
   "theorems": [
    "Verif.Funcs.C24_inverse",
    "Verif.Funcs.C24_chars",
    "Verif.Funcs.C24_plain"
   ],
   "note": "net/url QueryEscape is modelled as recalled; Unicode normalisation is a parameter that fixes ASCII text."
  },
  {
   "property": "C20",
   "status": "proved",
   "theorems": [
    "Verif.Funcs.C20_all",
    "Verif.Funcs.C20_all_known",
    "Verif.Funcs.C20_any",
    "Verif.Funcs.C20_any_known"
   ],
   "note": "function.Call and big.Float are modelled as recalled; stdlib.Equal and convert are parameters."
  },
  {
   "property": "C21",
   "status": "proved",
   "theorems": [
    "Verif.Funcs.C21_sound",
    "Verif.Funcs.C21_unknown",
    "Verif.Funcs.C21_endswith",
    "Verif.Funcs.C21_strcontains",
    "Verif.Funcs.C21_others_unknown"
   ],
   "note": "function.Call and big.Float are modelled as recalled; stdlib.Equal and convert are parameters."
  },
  {
   "property": "C22",
   "status": "partial",
   "theorems": [
    "Verif.Funcs.C22_index",
    "Verif.Funcs.C22_index_none",
    "Verif.Funcs.C22_matchkeys_partial",
    "Verif.Funcs.C22_matchkeys_length",
    "Verif.Funcs.C22_violated_matchkeys",
    "Verif.Funcs.C22_one",
    "Verif.Funcs.C22_coalesce",
    "Verif.Funcs.C22_coalesce_none",
    "Verif.Funcs.C22_sum_partial",
    "Verif.Funcs.C22_violated_sum",
    "Verif.Funcs.C22_sum_error",
    "Verif.Funcs.C22_transpose",
    "Verif.Funcs.C22_transpose_twice",
    "Verif.Funcs.C22_transpose_unknown",
    "Verif.Funcs.C22_lookup_found",
    "Verif.Funcs.C22_lookup_default",
    "Verif.Funcs.C22_lookup_redacted",
    "Verif.Funcs.C22_violated_lookup"
   ],
   "note": "matchkeys answers with a known empty list when a member of the search set is unknown; sum rounds when it does not fit the precision; lookup on an object prints a sensitive key in its error. The rest is proved. function.Call and big.Float are modelled as recalled; stdlib.Equal and convert are parameters."
  },
  {
   "property": "C25",
   "status": "partial",
   "theorems": [
    "Verif.Funcs.C25_partial",
    "Verif.Funcs.C25_violated"
   ],
   "note": "False: sensitive() drops every other mark. The rest is proved."
  },
  {
   "property": "C26",
   "status": "partial",
   "theorems": [
    "Verif.Funcs.C26_partial",
    "Verif.Funcs.C26_nanoseconds",
    "Verif.Funcs.C26_antisymm",
    "Verif.Funcs.C26_trans",
    "Verif.Funcs.C26_violated"
   ],
   "note": "Instants less than a nanosecond apart compare as equal; otherwise proved for all valid timestamps (leap seconds apart). time.Parse is modelled as recalled: its strict RFC 3339 path, with the general parser as a parameter."
  },
  {
   "property": "C57",
   "status": "partial",
   "theorems": [
    "Verif.HclS.C57_partial",
    "Verif.HclS.C57_default_partial",
    "Verif.HclS.C57_violated"
   ],
   "note": "False for a field that hides one of an embedded struct (C57_violated). Proved for struct types whose field names are distinct, for fields of the struct itself that are not also given as attribute. gohcl, reflect and HCL evaluation are external: parameters or recalled from memory."
  },
  {
   "property": "C58",
   "status": "partial",
   "theorems": [
    "Verif.HclS.C58_list",
    "Verif.HclS.C58_default",
    "Verif.HclS.C58_map",
    "Verif.HclS.C58_map2_partial",
    "Verif.HclS.C58_violated"
   ],
   "note": "Proved for map[string]T; false for map[[2]string]T when the first label is empty (C58_violated), proved there for two labels that are not empty, and for all others the key is told exactly. Stated for successful calls; a block without label panics. gohcl, reflect and HCL evaluation are external: parameters or recalled from memory."
  },
  {
   "property": "C61",
   "status": "partial",
   "theorems": [
    "Verif.HclS.C61_partial",
    "Verif.HclS.C61_violated",
    "Verif.HclS.C61_dropped"
   ],
   "note": "False when the numbers of labels and label fields differ: all labels are dropped silently. Proved when they are equal and the labels are not also attributes. gohcl, reflect and HCL evaluation are external: parameters or recalled from memory."
  },
  {
   "property": "C59",
   "status": "partial",
   "theorems": [
    "Verif.HclS.C59_violated_class",
    "Verif.HclS.C59_violated_reference",
    "Verif.HclS.C59_partial"
   ],
   "note": "False: the default class of a map specification and references between attributes depend on map order. Proved for documents of literals with specifications whose defaults are determined. gohcl, reflect and HCL evaluation are external: parameters or recalled from memory."
  },
  {
   "property": "C60",
   "status": "partial",
   "theorems": [
    "Verif.HclS.C60_violated_arguments",
    "Verif.HclS.C60_violated_history",
    "Verif.HclS.C60_partial",
    "Verif.HclS.C60_history_partial"
   ],
   "note": "False: spec and ref get new entries and variables of one call are seen by the next. Proved: exactly which entries can be added, and that a later call with a document of literals is not influenced. gohcl, reflect and HCL evaluation are external: parameters or recalled from memory."
  },
  {
   "property": "C62",
   "status": "partial",
   "theorems": [
    "Verif.HclS.C62_violated",
    "Verif.HclS.C62_violated_conditions",
    "Verif.HclS.C62_partial"
   ],
   "note": "False: for example a block without label for a map field and a label attribute that is not a string panic. Proved without panic for documents, types and specifications that fit (Fine, TypesOk in Spec/HclStructPanic). gohcl, reflect and HCL evaluation are external: parameters or recalled from memory."
  },
  {
   "property": "C63",
   "status": "partial",
   "theorems": [
    "Verif.HclS.C63_violated",
    "Verif.HclS.C63_partial"
   ],
   "note": "False for errors in nested blocks. Proved for unknown blocks and attributes and missing required attributes of the document itself. gohcl, reflect and HCL evaluation are external: parameters or recalled from memory."
  },
  {
   "property": "C64",
   "status": "partial",
   "theorems": [
    "Verif.HclS.C64_violated",
    "Verif.HclS.C64_violated_nil",
    "Verif.HclS.C64_nil",
    "Verif.HclS.C57_partial",
    "Verif.HclS.C58_list",
    "Verif.HclS.C58_map"
   ],
   "note": "False: of several blocks for a single struct only the first is read, and for a field specified by a nil *Struct none. For slices and maps C57 and C58 account for every block. gohcl, reflect and HCL evaluation are external: parameters or recalled from memory."
  },
  {
   "property": "C65",
   "status": "partial",
   "theorems": [
    "Verif.HclS.C65_violated",
    "Verif.HclS.C65_partial"
   ],
   "note": "False for empty objects, closing braces inside an object, and no space behind the equal sign. Proved otherwise. gohcl, reflect and HCL evaluation are external: parameters or recalled from memory."
  },
  {
   "property": "C66",
   "status": "partial",
   "theorems": [
    "Verif.HclS.C66_violated",
    "Verif.HclS.C66_partial"
   ],
   "note": "False for a type that contains itself in a field without tag. Proved with a bound for all other types. gohcl, reflect and HCL evaluation are external: parameters or recalled from memory."
  },
  {
   "property": "C67",
   "status": "partial",
   "theorems": [
    "Verif.HclS.C67_violated",
    "Verif.HclS.C67_partial"
   ],
   "note": "False for attributes that are null. Proved for all others. gohcl, reflect and HCL evaluation are external: parameters or recalled from memory."
  },
  {
   "property": "C68",
   "status": "partial",
   "theorems": [
    "Verif.HclS.C68_attr_partial",
    "Verif.HclS.C68_frame",
    "Verif.HclS.C68_single_partial",
    "Verif.HclS.C68_violated"
   ],
   "note": "False for a field that hides one of an embedded struct (C68_violated). Proved for struct types whose field names and tags are distinct, and fields of the struct itself. gohcl, reflect and HCL evaluation are external: parameters or recalled from memory."
  },
  {
   "property": "C71",
   "status": "proved",
   "theorems": [
    "Verif.HclS.C71_decodes_struct",
    "Verif.HclS.C71_order",
    "Verif.HclS.C71_unique"
   ],
   "note": "For struct types whose fields, those of embedded structs included, have distinct names and tags and are labels, ordinary values, structs or collections of structs; attributes are literals. gohcl, reflect and HCL evaluation are external: parameters or recalled from memory."
  },
  {
   "property": "C72",
   "status": "partial",
   "theorems": [
    "Verif.HclS.C72_partial",
    "Verif.HclS.C72_labels",
    "Verif.HclS.C72_labels_map",
    "Verif.HclS.C72_violated_nil",
    "Verif.HclS.C72_violated_labels",
    "Verif.HclS.C72_violated_quote",
    "Verif.HclS.C72_violated_zero",
    "Verif.HclS.C72_violated_key"
   ],
   "note": "False as stated (five witnesses). Proved for structs whose fields, those of embedded structs included, are labels, attributes, structs or collections of structs, without nil or zero elements in slices, empty collections of structs, empty or unsafe labels, zero required attributes, and with the key as first label in maps. The text of a single attribute (hclwrite) is a parameter. gohcl, reflect and HCL evaluation are external: parameters or recalled from memory."
  },
  {
   "property": "C73",
   "status": "partial",
   "theorems": [
    "Verif.HclS.C73_partial",
    "Verif.HclS.C73_same_meaning",
    "Verif.HclS.C73_violated",
    "Verif.HclS.C73_violated_form"
   ],
   "note": "False as stated (two witnesses). Proved for values whose maps have at most one entry; for writable structs the texts of any two orders decode to the same struct. gohcl, reflect and HCL evaluation are external: parameters or recalled from memory."
  },
  {
   "property": "C74",
   "status": "partial",
   "theorems": [
    "Verif.HclS.C74_partial",
    "Verif.HclS.C74_violated"
   ],
   "note": "False as stated (eight witnesses in one theorem). Proved for structs without nil pointers in maps, pointers to embedded structs, pointers to collections of basic values, labels that are not strings, repeated names and collections among the structs of a map of interfaces. gohcl, reflect and HCL evaluation are external: parameters or recalled from memory."
  },
  {
   "property": "C75",
   "status": "partial",
   "theorems": [
    "Verif.HclS.C75_partial",
    "Verif.HclS.C75_violated"
   ],
   "note": "False as stated: a struct that is zero but for hidden fields is written as an empty block. Proved for values in which no struct becomes zero; gohcl and the encoding of generic data are assumed not to see hidden fields. gohcl, reflect and HCL evaluation are external: parameters or recalled from memory."
  },
  {
   "property": "C76",
   "status": "proved",
   "theorems": [
    "Verif.Funcs.C76_value",
    "Verif.Funcs.C76_back",
    "Verif.Funcs.C76_redacted",
    "Verif.Funcs.C76_violated_sum"
   ],
   "note": "big.Int.SetString and big.Float.SetInt modelled as recalled; unknown and null arguments only by their outcome. C76_violated_sum: the exact result has a small precision, so sums of such results may be rounded. Expressions in HCL texts use stdlib.ParseIntFunc instead (functions.go), which is external."
  },
  {
   "property": "C77",
   "status": "partial",
   "theorems": [
    "Verif.Funcs.C77_partial",
    "Verif.Funcs.C77_violated"
   ],
   "note": "signum answers exactly for integers of 64 bits; fractions, larger numbers and infinities are errors."
  },
  {
   "property": "C78",
   "status": "partial",
   "theorems": [
    "Verif.Funcs.C78_partial",
    "Verif.Funcs.C78_twice",
    "Verif.Funcs.C78_timestamp",
    "Verif.Funcs.C78_violated"
   ],
   "note": "time.ParseDuration (see C143), the general parser of time.Parse and the location of the machine are parameters. Missing: results outside of the years 0 to 9999, fractions of seconds (they are cut off), locations that are not in whole minutes."
  },
  {
   "property": "C79",
   "status": "partial",
   "theorems": [
    "Verif.Funcs.C79_partial",
    "Verif.Funcs.C79_instant",
    "Verif.Funcs.C79_violated"
   ],
   "note": "Holds for UTC and for machines with a constant offset; on others the text differs, but not the instant."
  },
  {
   "property": "C80",
   "status": "partial",
   "theorems": [
    "Verif.Fn.C80_sound",
    "Verif.Fn.C80_partial",
    "Verif.Fn.C80_below",
    "Verif.Fn.C80_violated",
    "Verif.Fn.C80_violated_key",
    "Verif.Fn.C80_violated_null"
   ],
   "note": "Functions are looked up only for an expression that is itself a call: calls below operators, templates, conditionals and in keys always fail (C80_below). hclsyntax and the functions are parameters or modelled as recalled; for expressions are not represented."
  },
  {
   "property": "C81",
   "status": "partial",
   "theorems": [
    "Verif.Fn.C81_value",
    "Verif.Fn.C81_error",
    "Verif.Fn.C81_partial",
    "Verif.Fn.C81_unregistered",
    "Verif.Fn.C81_hcl",
    "Verif.Fn.C81_nested",
    "Verif.Fn.C81_violated"
   ],
   "note": "C81_partial says exactly when a call panics; null arguments and arguments of the wrong type are among these cases. reflect.Value.Call modelled as recalled; Go integer and float types are not told apart."
  },
  {
   "property": "C82",
   "status": "partial",
   "theorems": [
    "Verif.Fn.C82_partial",
    "Verif.Fn.C82_called",
    "Verif.Fn.C82_violated"
   ],
   "note": "Holds for names that are not built in; under built-in names the caller's functions are replaced, and a nil map panics."
  },
  {
   "property": "C83",
   "status": "partial",
   "theorems": [
    "Verif.Fn.C83_partial",
    "Verif.Fn.C83_violated"
   ],
   "note": "Types are forgotten: a list becomes a tuple and a map an object. Null lists and maps panic; unknown values are not represented."
  },
  {
   "property": "C84",
   "status": "partial",
   "theorems": [
    "Verif.Path.C84_opens_the_place",
    "Verif.Path.C84_opens_from_home",
    "Verif.Path.C84_refused",
    "Verif.Path.C84_canonical",
    "Verif.Path.C84_pathexpand",
    "Verif.Path.C84_pathexpand_home",
    "Verif.Path.C84_fileset_partial",
    "Verif.Path.C84_fileset_violated"
   ],
   "note": "fileset does not expand ~; everything else holds. path/filepath for Unix and homedir modelled as recalled; symbolic links are not represented."
  },
  {
   "property": "C85",
   "status": "partial",
   "theorems": [
    "Verif.Path.C85_confined_partial",
    "Verif.Path.C85_confined_only",
    "Verif.Path.C85_violated"
   ],
   "note": "False as stated. Proved for relative paths that never lead above their start, and that all other relative paths leave some base directory. path/filepath for Unix and homedir modelled as recalled; symbolic links are not represented."
  },
  {
   "property": "C86",
   "status": "partial",
   "theorems": [
    "Verif.Path.C86_dir_base_partial",
    "Verif.Path.C86_base_is_a_name",
    "Verif.Path.C86_dir",
    "Verif.Path.C86_violated"
   ],
   "note": "The place is kept for paths without a slash at the end. path/filepath for Unix and homedir modelled as recalled; symbolic links are not represented."
  },
  {
   "property": "C87",
   "status": "partial",
   "theorems": [
    "Verif.Path.C87_abspath",
    "Verif.Path.C87_file_partial",
    "Verif.Path.C87_file_violated",
    "Verif.Path.C87_normal_form_violated"
   ],
   "note": "Holds where the result is in normal form (NFC); file(abspath(p)) for paths without ~. path/filepath for Unix and homedir modelled as recalled; symbolic links are not represented."
  },
  {
   "property": "C88",
   "status": "partial",
   "theorems": [
    "Verif.File.C88_fileexists",
    "Verif.File.C88_file_partial",
    "Verif.File.C88_fileset_partial",
    "Verif.File.C88_marks",
    "Verif.File.C88_file_violated",
    "Verif.File.C88_hash_violated",
    "Verif.File.C88_fileset_violated",
    "Verif.File.C88_crypto_violated",
    "Verif.File.C88_key_violated"
   ],
   "note": "False as stated: only missing files and texts that are not UTF-8 are redacted by file, the hashes of files and uuidv5 and rsadecrypt redact nothing, and rsadecrypt prints private keys that are not RSA keys. fileexists is proved not to show anything. The operating system is a parameter; glob, hashes and ciphers are parameters; error texts of os as recalled."
  },
  {
   "property": "C89",
   "status": "partial",
   "theorems": [
    "Verif.File.C89_base64",
    "Verif.File.C89_file",
    "Verif.File.C89_agree",
    "Verif.File.C89_hash_partial",
    "Verif.File.C89_hash_violated"
   ],
   "note": "The hash of a file is the hash of the text that file gives only for texts in normal form (NFC). The operating system is a parameter; glob, hashes and ciphers are parameters; error texts of os as recalled."
  },
  {
   "property": "C90",
   "status": "partial",
   "theorems": [
    "Verif.File.C90_agree",
    "Verif.File.C90_answers_partial",
    "Verif.File.C90_violated"
   ],
   "note": "fileexists answers only for regular files and missing ones; directories are errors. C90_agree assumes that open and stat agree on which files are missing. The operating system is a parameter; glob, hashes and ciphers are parameters; error texts of os as recalled."
  },
  {
   "property": "C91",
   "status": "partial",
   "theorems": [
    "Verif.File.C91_elements",
    "Verif.File.C91_answers_partial",
    "Verif.File.C91_violated"
   ],
   "note": "One match that cannot be looked at makes fileset fail. Which paths match a pattern is external. The operating system is a parameter; glob, hashes and ciphers are parameters; error texts of os as recalled."
  },
  {
   "property": "C92",
   "status": "proved",
   "theorems": [
    "Verif.TreeMany.C92_kept",
    "Verif.TreeMany.C92_tree",
    "Verif.TreeMany.C92_added"
   ],
   "note": "Sequentially consistent memory, slices read at once; DeleteNode, items and Variables are not in this model."
  },
  {
   "property": "C93",
   "status": "partial",
   "theorems": [
    "Verif.TreeMany.C93_violated",
    "Verif.TreeMany.C93_partial",
    "Verif.TreeMany.C93_stable",
    "Verif.TreeMany.C93_sound"
   ],
   "note": "False when two goroutines add the same child at the same time; proved otherwise. The empty tag is excluded (see C06). Sequentially consistent memory, slices read at once; DeleteNode, items and Variables are not in this model."
  },
  {
   "property": "C94",
   "status": "partial",
   "theorems": [
    "Verif.TreeMany.C94_violated",
    "Verif.TreeMany.C94_partial"
   ],
   "note": "False while AddNode runs: a node can be seen, and even be returned by another AddNode, before its Up is set; proved for nodes in which no AddNode is running. Sequentially consistent memory, slices read at once; DeleteNode, items and Variables are not in this model."
  },
  {
   "property": "C95",
   "status": "proved",
   "theorems": [
    "Verif.TreeMany.C95_sound",
    "Verif.TreeMany.C95_found"
   ],
   "note": "Sequentially consistent memory, slices read at once; DeleteNode, items and Variables are not in this model."
  },
  {
   "property": "C96",
   "status": "proved",
   "theorems": [
    "Verif.TreeMany.C96_progress",
    "Verif.TreeMany.C96_released"
   ],
   "note": "Sequentially consistent memory, slices read at once; DeleteNode, items and Variables are not in this model."
  },
  {
   "property": "C97",
   "status": "partial",
   "theorems": [
    "Verif.Clone.C97_template",
    "Verif.Clone.C97_copy",
    "Verif.Clone.C97_violated",
    "Verif.Clone.C97_violated_siblings",
    "Verif.Clone.C97_partial",
    "Verif.Clone.C97_partial_siblings"
   ],
   "note": "False when an exported field of the template holds a pointer, map or slice: the copy shares it (C97_partial: independent exactly otherwise). That the decoder only makes cells and writes to cells it made is an assumption of C97_template (Fills)."
  },
  {
   "property": "C98",
   "status": "proved",
   "theorems": [
    "Verif.Clone.C98_independent",
    "Verif.Clone.C98_fresh"
   ],
   "note": "Memory model of reflect.New; templates are pointers to structs."
  },
  {
   "property": "C99",
   "status": "partial",
   "theorems": [
    "Verif.Text.C99_partial",
    "Verif.Text.C99_same",
    "Verif.Text.C99_empty",
    "Verif.Text.C99_violated"
   ],
   "note": "False when substr begins and ends with a slash: it is a regular expression then. regexp is a parameter; strings.ReplaceAll modelled as recalled."
  },
  {
   "property": "C100",
   "status": "partial",
   "theorems": [
    "Verif.Text.C100_partial",
    "Verif.Text.C100_violated_pattern",
    "Verif.Text.C100_violated_charset"
   ],
   "note": "False: a wrong regular expression and an unknown character set are shown. Proved for the text of the encodings, beyond the kind of failure and the place of the first wrong symbol."
  },
  {
   "property": "C101",
   "status": "partial",
   "theorems": [
    "Verif.Text.C101_partial",
    "Verif.Text.C101_violated",
    "Verif.Text.C101_gzip"
   ],
   "note": "False for texts with U+FFFD, which decoding refuses. Proved, as an equivalence, for normalised texts; the character sets and gzip are parameters."
  },
  {
   "property": "C102",
   "status": "proved",
   "theorems": [
    "Verif.Text.C102_secret",
    "Verif.Text.C102_values",
    "Verif.Text.C102_type"
   ],
   "note": "convert.Convert and its mismatch messages, which depend on the types only, are parameters."
  },
  {
   "property": "C103",
   "status": "proved",
   "theorems": [
    "Verif.Length.C103_error",
    "Verif.Length.C103_marks",
    "Verif.Length.C103_sound",
    "Verif.Length.C103_precise",
    "Verif.Length.C103_set"
   ],
   "note": "cty.Value.Length modelled as recalled; the number of characters of a string is a parameter."
  },
  {
   "property": "C104",
   "status": "partial",
   "theorems": [
    "Verif.Template.C104_partial",
    "Verif.Template.C104_noself",
    "Verif.Template.C104_refused",
    "Verif.Template.C104_marked",
    "Verif.Template.C104_violated"
   ],
   "note": "False for a path with marks, which is always an error. Proved for all others. hclsyntax.ParseTemplate and ValidIdentifier are parameters; vars with unknown or marked parts are not represented."
  },
  {
   "property": "C108",
   "status": "partial",
   "theorems": [
    "Verif.Hcl.C108_braces_partial",
    "Verif.Hcl.C108_brackets_partial",
    "Verif.Hcl.C108_violated"
   ],
   "note": "False for texts with further attributes or blocks behind the object or list: these are ignored. Proved for texts that are an object or a list (of literals)."
  },
  {
   "property": "C109",
   "status": "proved",
   "theorems": [
    "Verif.TreeVars.C109_complete",
    "Verif.TreeVars.C109_var",
    "Verif.TreeVars.C109_sound",
    "Verif.TreeVars.C109_progress"
   ],
   "note": "sync.Map as documented. Sequentially consistent memory, slices read at once; DeleteNode is not in this model."
  },
  {
   "property": "C110",
   "status": "partial",
   "theorems": [
    "Verif.TreeVars.C110_partial",
    "Verif.TreeVars.C110_violated"
   ],
   "note": "False when items change during the call. Proved otherwise."
  },
  {
   "property": "C106",
   "status": "proved",
   "theorems": [
    "Verif.HclS.C106_decodes_interfaces",
    "Verif.HclS.C106_order",
    "Verif.HclS.C106_unique",
    "Verif.HclS.C106_extends_C71"
   ],
   "note": "Named struct types; expressions are literals; the content of generic fields is that of their decoder (see C113), types with their own UnmarshalHCL are in C111. The specification gives classes to non-embedded fields."
  },
  {
   "property": "C107",
   "status": "partial",
   "theorems": [
    "Verif.HclS.C107_partial",
    "Verif.HclS.C107_injective",
    "Verif.HclS.C107_extends_C72",
    "Verif.HclS.C107_violated_nil"
   ],
   "note": "False for nil elements in slices: nothing is written for them and the next element gets their class. Proved for structs that fit the specification (Fits), as C72 for Writable."
  },
  {
   "property": "C105",
   "status": "partial",
   "theorems": [
    "Verif.HclS.C105_partial",
    "Verif.HclS.C105_among",
    "Verif.HclS.C105_root",
    "Verif.HclS.C105_violated"
   ],
   "note": "False for heredocs, whose lines are indented. Proved for texts in the modelled subset of HCL (no heredocs, comments or operators); methods are parameters."
  },
  {
   "property": "C111",
   "status": "proved",
   "theorems": [
    "Verif.HclS.C111_decodes_own",
    "Verif.HclS.C111_unmarshal",
    "Verif.HclS.C111_extends_C106"
   ],
   "note": "Methods are parameters; they get what the text of the block is parsed to. Documents as in C106. Only documents that the methods accept."
  },
  {
   "property": "C112",
   "status": "partial",
   "theorems": [
    "Verif.HclS.C112_partial",
    "Verif.HclS.C112_unmarshal_partial",
    "Verif.HclS.C112_violated_values",
    "Verif.HclS.C112_violated_values_pointer",
    "Verif.HclS.C112_violated_labels",
    "Verif.HclS.C112_violated_spec"
   ],
   "note": "False for methods with pointer receivers on structs held as values, for types with labels (which MarshalHCL cannot write), and for UnmarshalSpec, which does not call the method of its target. Proved for structs that fit (FitsOwn)."
  },
  {
   "property": "C113",
   "status": "partial",
   "theorems": [
    "Verif.HclS.C113_attribute",
    "Verif.HclS.C113_block",
    "Verif.HclS.C113_absent",
    "Verif.HclS.C113_violated"
   ],
   "note": "False for repeated blocks and blocks with labels, of which only the content of the first is used. Proved for attributes and single blocks of literals; that the field is decoded by the modelled decodeSlice and decodeMap is the assumption GenericDec."
  },
  {
   "property": "C114",
   "status": "partial",
   "theorems": [
    "Verif.HclS.C114_partial",
    "Verif.HclS.C114_injective",
    "Verif.HclS.C114_violated",
    "Verif.HclS.C114_violated_list",
    "Verif.HclS.C114_own_partial"
   ],
   "note": "False for empty maps (reading panics) and empty lists (nil afterwards). Proved for data as in C47 that decoding does not change. GenericDec and GenericEnc say that generic fields are decoded and written by the modelled functions."
  },
  {
   "property": "C115",
   "status": "proved",
   "theorems": [
    "Verif.HclS.C115_spec",
    "Verif.HclS.C115_unmarshal",
    "Verif.HclS.C115_reported",
    "Verif.HclS.C115_after"
   ],
   "note": "Failing is the opposite of giving a result: a better version of the failing parts leads to the same target. Evaluation of expressions is not among the parts that vary."
  },
  {
   "property": "C116",
   "status": "proved",
   "theorems": [
    "Verif.HclS.C116_marshal",
    "Verif.HclS.C116_reported"
   ],
   "note": "As C115, for MarshalHCL and the encoding of generic data."
  },
  {
   "property": "C117",
   "status": "proved",
   "theorems": [
    "Verif.Text.C117_contains",
    "Verif.Text.C117_unmark",
    "Verif.Text.C117_has",
    "Verif.Text.C117_secret"
   ],
   "note": "cty.Walk and UnmarkDeep modelled as recalled; of values only marks and nesting are represented."
  },
  {
   "property": "C118",
   "status": "partial",
   "theorems": [
    "Verif.Fn.C118_partial",
    "Verif.Fn.C118_without",
    "Verif.Fn.C118_others",
    "Verif.Fn.C118_violated",
    "Verif.Fn.C118_defaults"
   ],
   "note": "CoreFunctions([]string{}...) panics; proved for all other calls. Functions are named by the Go expressions of the table."
  },
  {
   "property": "C119",
   "status": "proved",
   "theorems": [
    "Verif.Det.C119_stable",
    "Verif.Det.C119_reported"
   ],
   "note": "As C115, for JsonUnmarshal; encoding/json, which decodes single values and whole structs without specification, is the part that can fail."
  },
  {
   "property": "C120",
   "status": "proved",
   "theorems": [
    "Verif.TreeAll.C120_tree",
    "Verif.TreeAll.C120_settled",
    "Verif.TreeAll.C120_order",
    "Verif.TreeAll.C120_kept",
    "Verif.TreeAll.C120_gone"
   ],
   "note": "Every read or write of a cell, of a header and of Up is one step; header reads and writes are atomic and memory is sequentially consistent."
  },
  {
   "property": "C121",
   "status": "proved",
   "theorems": [
    "Verif.TreeAll.C121_up",
    "Verif.TreeAll.C121_found"
   ],
   "note": "FindNode: soundness only. Readers can miss a child when an earlier sibling is deleted (C11_missed_read)."
  },
  {
   "property": "C122",
   "status": "proved",
   "theorems": [
    "Verif.TreeAll.C122_ends",
    "Verif.TreeAll.C122_waits",
    "Verif.TreeAll.C122_released"
   ],
   "note": ""
  },
  {
   "property": "C123",
   "status": "partial",
   "theorems": [
    "Verif.TreeAll.C123_violated",
    "Verif.TreeAll.C123_violated_new",
    "Verif.TreeAll.C123_partial",
    "Verif.TreeAll.C123_delete",
    "Verif.TreeAll.C123_readers",
    "Verif.TreeAll.C123_writes",
    "Verif.TreeAll.C123_reads"
   ],
   "note": "False: AddNode, GetNode and FindNode read Downs without the lock. Proved: every race is between a write with the lock of the node and a read without any lock, or concerns a node that was just made; none among calls of DeleteNode, none among readers. Other ways by which a program orders its calls are not represented."
  },
  {
   "property": "C124",
   "status": "partial",
   "theorems": [
    "Verif.TreeAll.C124_partial",
    "Verif.TreeAll.C124_call",
    "Verif.TreeAll.C124_ends",
    "Verif.TreeAll.C124_reachable",
    "Verif.TreeAll.C124_violated"
   ],
   "note": "False for overlapping calls: two AddNode of one name make two nodes, and GetNode misses a child while an earlier one is deleted. Proved for calls that are not interrupted, also while other calls have stopped half-way; this also says that the step-by-step model and the sequential model agree."
  },
  {
   "property": "C125",
   "status": "proved",
   "theorems": [
    "Verif.TreeAll.C125_atomic",
    "Verif.TreeAll.C125_deletes",
    "Verif.TreeAll.C125_adds",
    "Verif.TreeAll.C125_serial",
    "Verif.TreeAll.C125_reachable",
    "Verif.TreeAll.C125_violated"
   ],
   "note": "C125_violated shows that C125_serial needs its hypothesis: twins are no tree of a single goroutine."
  },
  {
   "property": "C126",
   "status": "proved",
   "theorems": [
    "Verif.Typed.C126_conforms",
    "Verif.Typed.C126_retired"
   ],
   "note": "On the model of function.Call (external, as recalled); assumed of convert.Convert: results have the type asked for, null exactly for null, nothing happens to a value of the type."
  },
  {
   "property": "C127",
   "status": "partial",
   "theorems": [
    "Verif.Typed.C127_types_partial",
    "Verif.Typed.C127_violated"
   ],
   "note": "All functions but coalesce, for which it is wrong if UnifyUnsafe works as recalled."
  },
  {
   "property": "C128",
   "status": "partial",
   "theorems": [
    "Verif.Typed.C128_results_partial",
    "Verif.Typed.C128_matchkeys_violated",
    "Verif.Typed.C128_lookup_violated",
    "Verif.Typed.C128_type_violated"
   ],
   "note": "All functions, where Steady holds; wrong for matchkeys with unknown values in the search set, for lookup of a default in a map whose element type changes, for type, and for coalesce."
  },
  {
   "property": "C129",
   "status": "partial",
   "theorems": [
    "Verif.Typed.C129_coalesce_partial",
    "Verif.Typed.C129_violated"
   ],
   "note": "If all arguments can be converted; an argument that cannot is skipped silently."
  },
  {
   "property": "C130",
   "status": "partial",
   "theorems": [
    "Verif.Typed.C130_null",
    "Verif.Typed.C130_final_partial",
    "Verif.Typed.C130_violated"
   ],
   "note": "If the types of arguments do not change for alltrue, anytrue, transpose, coalesce, matchkeys and maps of lookup; else an error may turn into a value."
  },
  {
   "property": "C131",
   "status": "partial",
   "theorems": [
    "Verif.Typed.C131_hidden_partial",
    "Verif.Typed.C131_violated"
   ],
   "note": "If the arguments with which Call gives up early are known; else the marks of unknown arguments are lost (lookup, conversions)."
  },
  {
   "property": "C132",
   "status": "proved",
   "theorems": [
    "Verif.Typed.C132_values",
    "Verif.Typed.C132_sensitive"
   ],
   "note": "With convert.Convert as a parameter that does not look at marks."
  },
  {
   "property": "C133",
   "status": "partial",
   "theorems": [
    "Verif.Typed.C133_old",
    "Verif.Typed.C133_kept_partial",
    "Verif.Typed.C133_deep_partial",
    "Verif.Typed.C133_violated"
   ],
   "note": "The first half holds throughout; the second one for arguments that are known (see C131) and except for the default value of lookup, sensitive (C25) and nonsensitive; C133_violated has witnesses."
  },
  {
   "property": "C134",
   "status": "partial",
   "theorems": [
    "Verif.HclS.C134_partial",
    "Verif.HclS.C134_violated_sibling",
    "Verif.HclS.C134_violated_generic"
   ],
   "note": "For references from blocks to attributes of enclosing bodies that are literals (possibly after replacing), in documents without content for generic fields and without attributes called like blocks. False for references within one body: they depend on the iteration order of a map; and with generic fields, whose members are stored as attributes of the enclosing body."
  },
  {
   "property": "C135",
   "status": "partial",
   "theorems": [
    "Verif.HclS.C135_partial",
    "Verif.HclS.C135_violated_list",
    "Verif.HclS.C135_violated_null",
    "Verif.HclS.C135_violated_sibling"
   ],
   "note": "For references from blocks to attributes of enclosing bodies that are scalars, in documents without attributes called like blocks, labels or their numbers. False for references to lists (they give an object), to null() (they fail) and within one body (iteration order)."
  },
  {
   "property": "C136",
   "status": "proved",
   "theorems": [
    "Verif.HclS.C136",
    "Verif.HclS.C136_slice",
    "Verif.HclS.C136_trees"
   ],
   "note": "Text within the modelled subset of HCL."
  },
  {
   "property": "C137",
   "status": "partial",
   "theorems": [
    "Verif.Hcl.C137_partial",
    "Verif.Hcl.C137_yaml",
    "Verif.Hcl.C137_violated"
   ],
   "note": "For integers of 64 bits with sign; larger ones are written as uint64 and refused as float64. NaN and infinities are not represented; yaml.v3 and encoding/json are parameters."
  },
  {
   "property": "C138",
   "status": "proved",
   "theorems": [
    "Verif.Hcl.C138"
   ],
   "note": "NaN and infinities are not represented."
  },
  {
   "property": "C140",
   "status": "partial",
   "theorems": [
    "Verif.TreeWatch.C140_partial",
    "Verif.TreeWatch.C140_var_partial",
    "Verif.TreeWatch.C140_violated"
   ],
   "note": "False: if a sibling before a node is deleted during the loop of Variables, the cells move and the node is skipped. Proved if no sibling before a node on the way is deleted meanwhile."
  },
  {
   "property": "C141",
   "status": "proved",
   "theorems": [
    "Verif.TreeWatch.C141_sound",
    "Verif.TreeWatch.C141_progress"
   ],
   "note": ""
  },
  {
   "property": "C139",
   "status": "partial",
   "theorems": [
    "Verif.Hcl.C139_partial",
    "Verif.Hcl.C139_violated"
   ],
   "note": "False for empty lists: they are read as nil slices, for which Marshal writes text that is not HCL. Proved for data as in C47 without empty lists."
  },
  {
   "property": "C142",
   "status": "partial",
   "theorems": [
    "Verif.Hcl.C142_json_partial",
    "Verif.Hcl.C142_yaml_partial",
    "Verif.Hcl.C142_violated",
    "Verif.Hcl.C142_no_float"
   ],
   "note": "False for integers of more than 53 bits by way of JSON. Proved for data as in C47 without empty lists if JSON or YAML gives back data of the same value; encoding/json and yaml.v3 are parameters."
  },
  {
   "property": "C143",
   "status": "partial",
   "theorems": [
    "Verif.Funcs.C143_exact_partial",
    "Verif.Funcs.C143_zero",
    "Verif.Funcs.C143_only",
    "Verif.Funcs.C143_timeadd",
    "Verif.Funcs.C143_refused",
    "Verif.Funcs.C143_near_partial",
    "Verif.Funcs.C143_violated",
    "Verif.Funcs.C143_wraps"
   ],
   "note": "time.ParseDuration is modelled as recalled. Exact if no number has more digits after the point than its unit has zeros; otherwise right up to 1.01 ns for each number (up to 18 digits after the point). False for more digits (float64) and for sums that wrap uint64."
  },
  {
   "property": "C144",
   "status": "partial",
   "theorems": [
    "Verif.HclS.C144_reads",
    "Verif.HclS.C144_panics",
    "Verif.HclS.C144_agree_partial",
    "Verif.HclS.C144_violated",
    "Verif.HclS.C144_used"
   ],
   "note": "What tag2 reads and when it panics is told exactly for all tags (ASCII white space). Agreement with reflect.StructTag (modelled as recalled, strconv.Unquote a parameter) is proved for conventional tags whose values contain no white space, quotes or backslashes; false for others."
  },
  {
   "property": "C145",
   "status": "partial",
   "theorems": [
    "Verif.HclS.C145_partial",
    "Verif.HclS.C145_violated"
   ],
   "note": "Proved for values whose text reads back (numbers, booleans) and nil, for structs with this one field (with other fields: C72_partial). False for strings: they are written without quotes; every string that is a name is then read as a variable, and reading fails."
  },
  {
   "property": "C146",
   "status": "partial",
   "theorems": [
    "Verif.Hcl.C146_partial",
    "Verif.Hcl.C146_succeeds",
    "Verif.Hcl.C146_panics",
    "Verif.Hcl.C146_violated",
    "Verif.Hcl.C146_violated_nil"
   ],
   "note": "False as stated: nil maps and maps and slices of other types panic after decoding, and a nil target accepts any text. Proved: what a call that succeeds does, exactly when calls succeed, and exactly when they panic. What the entries of a text are is the subject of C50; HCL evaluation is external."
  },
  {
   "property": "C147",
   "status": "proved",
   "theorems": [
    "Verif.Funcs.C147_accurate",
    "Verif.Funcs.C147_refuses",
    "Verif.Funcs.C147_infinite",
    "Verif.Funcs.C147_zero",
    "Verif.Funcs.C147_range",
    "Verif.Funcs.C147_unknown"
   ],
   "note": "math.Log is a parameter with a relative error of at most 2^-52 against Mathlib's real logarithm for positive numbers; its special cases, float64 division and rounding (with subnormal numbers and overflow) and the conversion from cty are modelled as recalled. Arguments are exact float64 numbers, for others the code rounds first. A zero has no sign. The function table of the language uses stdlib.LogFunc, not this one."
  },
  {
   "property": "C148",
   "status": "proved",
   "theorems": [
    "Verif.Funcs.C148_refuses",
    "Verif.Funcs.C148_zero",
    "Verif.Funcs.C148_infinite_power",
    "Verif.Funcs.C148_infinite_base",
    "Verif.Funcs.C148_value",
    "Verif.Funcs.C147_unknown"
   ],
   "note": "math.Pow outside its special cases is a parameter that is never NaN; how near it is to the power is not stated. A zero has no sign, so -0 to an odd negative power is not described."
  },
  {
   "property": "C149",
   "status": "partial",
   "theorems": [
    "Verif.Cidr.C149_host",
    "Verif.Cidr.C149_subnet",
    "Verif.Cidr.C149_subnets",
    "Verif.Cidr.C149_netmask",
    "Verif.Cidr.C149_chain",
    "Verif.Cidr.C149_whole",
    "Verif.Cidr.C149_violated"
   ],
   "note": "net.IP.String and net.IPNet.String are modelled as recalled. Proved for numbers in range and results that do not begin with an IPv4-mapped address (cidrsubnets never returns those), cidrnetmask for IPv4. False otherwise: a negative number of bits gives the text <nil> or a larger network, IPv4-mapped parts of IPv6 prefixes are printed as IPv4 networks."
  },
  {
   "property": "C150",
   "status": "partial",
   "theorems": [
    "Verif.Ident.C150_uuid",
    "Verif.Ident.C150_uuid_injective",
    "Verif.Ident.C150_version4_partial",
    "Verif.Ident.C150_version4_violated",
    "Verif.Ident.C150_accepts_partial",
    "Verif.Ident.C150_accepts_violated",
    "Verif.Ident.C150_same_namespace",
    "Verif.Ident.C150_well_known",
    "Verif.Ident.C150_version5",
    "Verif.Ident.C150_chain",
    "Verif.Ident.C150_distinct"
   ],
   "note": "False: uuid does not set version and variant, so most results are not of version 4; a UUID between any two bytes is accepted as a namespace. The rest is proved. The two uuid packages are modelled as recalled, SHA-1 and the random bytes are parameters."
  },
  {
   "property": "C151",
   "status": "partial",
   "theorems": [
    "Verif.Ident.C151_cost_partial",
    "Verif.Ident.C151_cost_violated",
    "Verif.Ident.C151_answers",
    "Verif.Ident.C151_hides"
   ],
   "note": "False for costs below 4: they are replaced by 10 without an error. The rest is proved. golang.org/x/crypto/bcrypt is modelled as recalled, its cipher is a parameter; null and unknown arguments are handled by function.Call (C131)."
  },
  {
   "property": "C152",
   "status": "partial",
   "theorems": [
    "Verif.Spec.C152_partial",
    "Verif.Spec.C152_violated"
   ],
   "note": "False: maps behind the first are dropped silently, and a slice that is empty but not nil panics. Proved: what every call does in terms of its first map."
  },
  {
   "property": "C153",
   "status": "partial",
   "theorems": [
    "C153_refuses",
    "C153_unknown",
    "C153_known",
    "C153_ends",
    "C153_hidden_partial",
    "C153_violated"
   ],
   "note": "All proved except for marks of unknown arguments: base64decode, file, filebase64, fileexists, fileset and parseint give an unmarked result for a sensitive argument that is not known yet (C153_violated)."
  },
  {
   "property": "C154",
   "status": "partial",
   "theorems": [
    "C154_nearest",
    "C154_overflow",
    "C154_kept",
    "C154_errors",
    "C154_infinite",
    "C154_adjacent",
    "C154_value_partial",
    "C154_agrees",
    "C154_write_agrees",
    "C154_panics",
    "C154_inf_text",
    "C154_violated"
   ],
   "note": "Characterised completely; the property itself does not hold: NaN panics, infinities are written as no number or refused, fractions beyond float32 become infinite, float64 fractions become float32 neighbours."
  },
  {
   "property": "C155",
   "status": "partial",
   "theorems": [
    "C155_refuses",
    "C155_known_partial",
    "C155_unknown",
    "C155_ends",
    "C155_hidden_partial",
    "C155_violated"
   ],
   "note": "Proved for paths without marks and vars of known type; a marked path fails or loses its marks (C155_violated)."
  },
  {
   "property": "C156",
   "status": "partial",
   "theorems": [
    "C156_ends_partial",
    "C156_text",
    "C156_cycle",
    "C156_same",
    "C156_violated"
   ],
   "note": "Proved for data without cycles, shared or not; for data in cycles Marshal overflows every stack (C156_violated, C156_cycle)."
  },
  {
   "property": "C157",
   "status": "proved",
   "theorems": [
    "Verif.HclAgain.C157_map",
    "Verif.HclAgain.C157_slice",
    "Verif.HclAgain.C157_list_text",
    "Verif.HclAgain.C157_object_text"
   ],
   "note": "Lexer and parser of hclsyntax are modelled as recalled, for the part of the language in Model/HclSyntax. The tree of variables is not represented here."
  },
  {
   "property": "C158",
   "status": "proved",
   "theorems": [
    "Verif.HclAgain.C158_text",
    "Verif.HclAgain.C158_tree",
    "Verif.HclAgain.C158_generic"
   ],
   "note": "Lexer and parser of hclsyntax are modelled as recalled, for the part of the language in Model/HclSyntax (blocks on several lines or empty). That an empty block panics when it is read into a generic map is C114."
  },
  {
   "property": "C159",
   "status": "proved",
   "theorems": [
    "Verif.Det.C159_ends",
    "Verif.Det.C159_written_out",
    "Verif.Det.C159_tree"
   ],
   "note": "JsonUnmarshal is taken to see n levels of a specification in n nested calls (it compares no pointers). That it returns supposes that type discovery does (C45)."
  },
  {
   "property": "C160",
   "status": "partial",
   "theorems": [
    "Verif.Det.C160_partial",
    "Verif.Det.C160_violated"
   ],
   "note": "False for single fields: no document at all is decoded. Proved for lists and maps that are left out."
  },
  {
   "property": "C161",
   "status": "partial",
   "theorems": [
    "Verif.HclS.C161_partial",
    "Verif.HclS.C161_violated",
    "Verif.HclS.C161_violated_names"
   ],
   "note": "False with another ref: the second call fails. Proved with the ref of the calls before, for documents of literals; the specification has to determine every default and fields of different levels must not share names."
  },
  {
   "property": "C162",
   "status": "partial",
   "theorems": [
    "Verif.SpecHeap.C162_partial",
    "Verif.SpecHeap.C162_tree",
    "Verif.SpecHeap.C162_cycle",
    "Verif.SpecHeap.C162_violated"
   ],
   "note": "False for a map that contains itself: every stack overflows. Proved for all others, shared or not; a description that contains itself never gives a specification (C162_cycle). Slices and maps of other types are data here."
  },
  {
   "property": "C163",
   "status": "partial",
   "theorems": [
    "Verif.SpecHeap.C163_partial",
    "Verif.SpecHeap.C163_shared",
    "Verif.SpecHeap.C163_violated"
   ],
   "note": "False when the description has a *Struct: it becomes part of the specification. Proved without, and with them up to what they reach (C163_shared). Slices and maps of other types are data here."
  },
  {
   "property": "C164",
   "status": "partial",
   "theorems": [
    "Verif.HclS.C164_partial",
    "Verif.HclS.C164_again",
    "Verif.HclS.C164_written",
    "Verif.HclS.C164_left",
    "Verif.HclS.C164_start",
    "Verif.HclS.C164_violated"
   ],
   "note": "False if fields of different levels share names (C164_violated). Proved for all documents, whether they are decoded or fail, if types of one name have one new value and fields of different levels do not share names. C164_left and C164_start: the hypothesis about the memory is kept by every call that succeeds and holds at first. C164_written: the same for a specification that has the entries written in it, for documents that are decoded."
  },
  {
   "property": "C165",
   "status": "proved",
   "theorems": [
    "Verif.HclS.C165",
    "Verif.HclS.C165_none"
   ],
   "note": "The tree of variables and the functions in ref are kept apart (they do count)."
  },
  {
   "property": "C166",
   "status": "partial",
   "theorems": [
    "Verif.HclS.C166_partial",
    "Verif.HclS.C166_block",
    "Verif.HclS.C166_violated",
    "Verif.HclS.C166_violated_packages"
   ],
   "note": "False: the value registered under the name of a type is replaced when some field of that type has no specification, and types of one name from two packages replace each other (panic). Proved for classes whose names are not names of types: for lists, and for every block of which C57-C61 say how it is decoded (C166_block)."
  },
  {
   "property": "C167",
   "status": "partial",
   "theorems": [
    "Verif.HclS.C167_classes",
    "Verif.HclS.C167_partial",
    "Verif.HclS.C167_violated"
   ],
   "note": "False: the default class is taken from whichever first label the iteration over the specification meets (C167_violated). C167_classes says which class every block gets; C167_partial is the claim for specifications with one first label."
  },
  {
   "property": "C168",
   "status": "proved",
   "theorems": [
    "Verif.Fn.C168_funcs",
    "Verif.Fn.C168_extern",
    "Verif.Fn.C168_listed",
    "Verif.Fn.C168_panics",
    "Verif.Fn.C168_unlisted",
    "Verif.Fn.C168_unused"
   ],
   "note": "C168_funcs for the functions of package funcs, C168_extern for those of other packages (stdlib, tryfunc, ctyyaml), whose numbers of parameters are as recalled. WithNewDescriptions of go-cty is modelled as recalled; texts of descriptions are a parameter."
  },
  {
   "property": "C169",
   "status": "partial",
   "theorems": [
    "Verif.Spec.C169_partial",
    "Verif.Spec.C169_exact",
    "Verif.Spec.C169_violated"
   ],
   "note": "False for class names and labels, which are not checked (C169_violated). Proved if these are UTF-8, which C169_exact shows to be necessary. Which strings proto3 allows is external, as recalled."
  },
  {
   "property": "C170",
   "status": "partial",
   "theorems": [
    "Verif.Fn.C170_partial",
    "Verif.Fn.C170_names",
    "Verif.Fn.C170_others",
    "Verif.Fn.C170_violated"
   ],
   "note": "False for six functions (log, pow, signum, parseint, timeadd, type), which no name stands for. Proved for all others. Constructors (Make..) are not included; C118 is about those of files."
  },
  {
   "property": "C171",
   "status": "partial",
   "theorems": [
    "Verif.Det.C171_partial",
    "Verif.Det.C171_kept",
    "Verif.Det.C171_violated"
   ],
   "note": "False for fields specified by a nil *Struct (or a Value without content), which are skipped silently (C171_violated, C171_kept). Proved for all others. encoding/json is a parameter; nil pointers inside lists and maps of specifications are not represented."
  }
 ]
}