{
 "claims": [
  {
   "property": "C01",
   "status": "proved",
   "theorems": [
    "Jettison.Props.C01_string_token"
   ],
   "note": ""
  },
  {
   "property": "C02",
   "status": "proved",
   "theorems": [
    "Jettison.Props.C02_string_decodes",
    "Jettison.Props.C02_string_roundtrip"
   ],
   "note": ""
  },
  {
   "property": "C03",
   "status": "proved",
   "theorems": [
    "Jettison.Props.C03_html_safe"
   ],
   "note": ""
  },
  {
   "property": "C04",
   "status": "proved",
   "theorems": [
    "Jettison.Props.C04_no_coercion"
   ],
   "note": ""
  },
  {
   "property": "C05",
   "status": "proved",
   "theorems": [
    "Jettison.Props.C05_verbatim"
   ],
   "note": ""
  },
  {
   "property": "C06",
   "status": "proved",
   "theorems": [
    "Jettison.Props.C06_output_utf8",
    "Jettison.Props.C06_injective"
   ],
   "note": ""
  },
  {
   "property": "C07",
   "status": "proved",
   "theorems": [
    "Jettison.Props.C07_valid_iff_grammar",
    "Jettison.Props.C07_encodeNumber",
    "Jettison.Props.C07_no_validation"
   ],
   "note": ""
  },
  {
   "property": "C08",
   "status": "proved",
   "theorems": [
    "Jettison.Props.C08_integer_literal",
    "Jettison.Props.C08_integer_number",
    "Jettison.Props.C08_integer_injective"
   ],
   "note": ""
  },
  {
   "property": "C09",
   "status": "proved",
   "theorems": [
    "Jettison.Props.C09_nonfinite",
    "Jettison.Props.C09_finite",
    "Jettison.Props.C09_exponent_form",
    "Jettison.Props.C09_thresholds"
   ],
   "note": "strconv.AppendFloat is a parameter; only the documented shape of its text is assumed (FormatContract). The decimal value strconv prints is outside the model."
  },
  {
   "property": "C10",
   "status": "partial",
   "theorems": [
    "Jettison.Props.C10_rfc3339_partial",
    "Jettison.Props.C10_rfc3339_iff",
    "Jettison.Props.C10_year_zero",
    "Jettison.Props.C10_no_panic",
    "Jettison.Props.C10_layouts",
    "Jettison.Props.C10_reading_unique",
    "Jettison.Props.C10_reading_exists",
    "Jettison.Props.C10_year_zero_wrong"
   ],
   "note": "Right for every instant from 0000-12-31 to 9999-12-31. In the rest of year 0, which the guard accepts, the text is right at midnights from March 1 on only (C10_rfc3339_iff, C10_year_zero_wrong); C10_year_zero says what is written. No time makes the encoder panic."
  },
  {
   "property": "C11",
   "status": "proved",
   "theorems": [
    "Jettison.Props.C11_year_range",
    "Jettison.Props.C11_unix_time"
   ],
   "note": ""
  },
  {
   "property": "C12",
   "status": "proved",
   "theorems": [
    "Jettison.Props.C12_denotes",
    "Jettison.Props.C12_canonical"
   ],
   "note": ""
  },
  {
   "property": "C13",
   "status": "proved",
   "theorems": [
    "Jettison.Props.C13_numeric",
    "Jettison.Props.C13_format_known"
   ],
   "note": ""
  },
  {
   "property": "C14",
   "status": "proved",
   "theorems": [
    "Jettison.Props.C14_compact_value"
   ],
   "note": ""
  },
  {
   "property": "C15",
   "status": "proved",
   "theorems": [
    "Jettison.Props.C15_idempotent",
    "Jettison.Props.C15_malformed_not_idempotent"
   ],
   "note": "On malformed input (a raw message is not validated) idempotence fails; C15_malformed_not_idempotent has witnesses for both settings."
  },
  {
   "property": "C16",
   "status": "proved",
   "theorems": [
    "Jettison.Props.C16_base64",
    "Jettison.Props.C16_reserve",
    "Jettison.Props.C16_nil"
   ],
   "note": ""
  },
  {
   "property": "C17",
   "status": "proved",
   "theorems": [
    "Jettison.Props.C17_names_distinct"
   ],
   "note": "sort.Sort is a parameter: any sorted permutation (SortOk)."
  },
  {
   "property": "C18",
   "status": "partial",
   "theorems": [
    "Jettison.Props.C18_visible_chosen",
    "Jettison.Props.C18_chosen_wins",
    "Jettison.Props.C18_chosen_iff_visible_partial",
    "Jettison.Props.C18_shared_wrong"
   ],
   "note": "Every visible field is chosen, always. The converse holds unless a struct that embeds others is itself embedded twice at its least depth; there the code chooses fields Go's rule hides (C18_shared_wrong). The exact rule of the code is C49."
  },
  {
   "property": "C19",
   "status": "proved",
   "theorems": [
    "Jettison.Props.C19_declaration_order"
   ],
   "note": ""
  },
  {
   "property": "C20",
   "status": "partial",
   "theorems": [
    "Jettison.Props.C20_denied_iff",
    "Jettison.Props.C20_no_lists",
    "Jettison.Props.C20_empty_allow",
    "Jettison.Props.C21_object_exact",
    "Jettison.Props.C20_C21_C22_object_partial"
   ],
   "note": "The decision is proved outright, and for every struct position, at any nesting level, the members are exactly those not left out. The text of the object is proved unless the first member is dropped as null and a later one is not (then the code is wrong, C21_null_first_wrong)."
  },
  {
   "property": "C21",
   "status": "partial",
   "theorems": [
    "Jettison.Props.C21_object_exact",
    "Jettison.Props.C20_C21_C22_object_partial",
    "Jettison.Props.C21_null_first_wrong"
   ],
   "note": "Exactly the members of the spec are left out. Dropped as null is any text that ends in null, which for MarshalJSON results that are not strings is the null literal. C21_object_exact: the text is the object of the members kept if and only if the first member tried is not dropped as null or all are; otherwise there is a comma after the brace and it is no JSON text (C21_null_first_wrong)."
  },
  {
   "property": "C22",
   "status": "partial",
   "theorems": [
    "Jettison.Props.C22_route_partial",
    "Jettison.Props.C20_C21_C22_object_partial",
    "Jettison.Props.C22_fork_wrong"
   ],
   "note": "Proved under RoutesApart, which is necessary and sufficient (C71_type_iff): routes are right unless a struct at depth 3, 5, 6, 7, ... embeds two structs (C71_no_fork); then the code may read the wrong place (C22_fork_wrong). The object theorem has each member encoded from the value at its own path. The exact rule of the code, for every type, is C71."
  },
  {
   "property": "C23",
   "status": "partial",
   "theorems": [
    "Jettison.Props.C23_C24_members",
    "Jettison.Props.C23_order_partial",
    "Jettison.Props.C23_order_plain",
    "Jettison.Props.C23_text_partial",
    "Jettison.Props.C23_coerced_keys_wrong"
   ],
   "note": "The full statement is false: keys coerced to the same text (C23_coerced_keys_wrong). Order and members proved for all maps; the result is independent of the iteration order, of the sorting algorithm and of the memory if entries of a map that are written with the same key are written with the same value, in particular for valid UTF-8 strings and integers."
  },
  {
   "property": "C24",
   "status": "proved",
   "theorems": [
    "Jettison.Props.C23_C24_members",
    "Jettison.Props.C24_reordered"
   ],
   "note": "Members in the order of the visit; two successful calls, with or without UnsortedMap and with any orders, differ only in the order of members."
  },
  {
   "property": "C25",
   "status": "partial",
   "theorems": [
    "Jettison.Props.C25_map",
    "Jettison.Props.C25_slice_exact",
    "Jettison.Props.C25_slice_partial",
    "Jettison.Props.C50_option_scope",
    "Jettison.Props.C25_nil_bytes_wrong"
   ],
   "note": "Maps and slices, anywhere in a value; that the options affect only nil values is an instance of C50_option_scope. C25_slice_exact: a nil slice is [] if and only if NilSliceEmpty is on and its elements are not bytes (C25_nil_bytes_wrong), else null; an empty one is [] or, of bytes, the empty string."
  },
  {
   "property": "C26",
   "status": "partial",
   "theorems": [
    "Jettison.Props.C26_C46_relay_partial",
    "Jettison.Props.C26_calls",
    "Jettison.Props.C26_text_key_wrong",
    "Jettison.Props.C26_embedded_pointer_wrong"
   ],
   "note": "The first method available, in the documented order, encodes the value; nothing else is called, never on natively supported types. Fields of embedded pointers count as not addressable (C26_embedded_pointer_wrong) and map keys prefer other methods to MarshalText (C26_text_key_wrong)."
  },
  {
   "property": "C27",
   "status": "proved",
   "theorems": [
    "Jettison.Props.C27_append",
    "Jettison.Props.C27_no_options"
   ],
   "note": "Methods that append are assumed to append (HonestAppend), as their documentation asks. Spare capacity of the destination is not modelled except for base64 (C16_reserve)."
  },
  {
   "property": "C28",
   "status": "proved",
   "theorems": [
    "Jettison.Props.C28_error_stops",
    "Jettison.Props.C28_method_error",
    "Jettison.Props.C28_nil_bytes_iff_error",
    "Jettison.Props.C28_bound_irrelevant"
   ],
   "note": ""
  },
  {
   "property": "C29",
   "status": "proved",
   "theorems": [
    "Jettison.Props.C29_effect",
    "Jettison.Props.C29_rejected_iff",
    "Jettison.Props.C29_extensional",
    "Jettison.Props.C29_rejected_before_encoding",
    "Jettison.Props.C29_accepted",
    "Jettison.Props.C29_same_result",
    "Jettison.Props.C29_nil_not_validated"
   ],
   "note": "For the nil interface the options are not looked at (C29_nil_not_validated)."
  },
  {
   "property": "C30",
   "status": "partial",
   "theorems": [
    "Jettison.Props.C30_document_partial",
    "Jettison.Props.C30_value_partial",
    "Jettison.Props.big_fine",
    "Jettison.Props.C30_duration_key_wrong",
    "Jettison.Props.C30_time_key_wrong",
    "Jettison.Props.C30_time_key_panic",
    "Jettison.Props.C30_raw_wrong",
    "Jettison.Props.C30_layout_wrong"
   ],
   "note": "The text is one JSON text without whitespace and its tree is the one Spec/Doc prescribes for the value (Denotes), for all types, values, depths and options with escaping on, user methods included, except the values ruled out by Fine: those of the counterexamples (durations and times as keys, unescaped texts and time layouts, nil bytes with NilSliceEmpty, years outside 0..9999, string-tagged strings with escapes and native types) on which the full statement is false."
  },
  {
   "property": "C31",
   "status": "proved",
   "theorems": [
    "Jettison.Props.C31_result",
    "Jettison.Props.demo_results"
   ],
   "note": "every reachable state of every execution: any number of goroutines, any interleaving of the atomic operations on caches, pools and byte arrays; a call that has returned gave the result of the same call alone with empty caches. Executions are proved total in C32"
  },
  {
   "property": "C32",
   "status": "proved",
   "theorems": [
    "Jettison.Props.C32_generator",
    "Jettison.Props.C32_waited",
    "Jettison.Props.C32_no_deadlock",
    "Jettison.Props.C32_finite",
    "Jettison.Props.C32_fair",
    "Jettison.Props.C33_fair_partial",
    "Jettison.Props.demo_waits",
    "Jettison.Props.demo_fair",
    "Jettison.Props.demo_alive"
   ],
   "note": "who owes a placeholder never waits; no deadlock; finitely many operations; under a fair scheduler every call returns, if no call overflows the stack, which C33_fair_partial proves for finite types and data"
  },
  {
   "property": "C33",
   "status": "partial",
   "theorems": [
    "Jettison.Props.C33_fields_terminate",
    "Jettison.Props.C33_types_iff",
    "Jettison.Props.C33_endless_wrong",
    "Jettison.Props.C33_endless_concurrent_wrong",
    "Jettison.Props.C33_visits_partial",
    "Jettison.Props.C33_cyclic_wrong",
    "Jettison.Props.C33_cyclic_concurrent_wrong",
    "Jettison.Props.C33_visits_concurrent_partial",
    "Jettison.Props.self_cyclic",
    "Jettison.Props.deny_not_cyclic",
    "Jettison.Props.C33_types_partial",
    "Jettison.Props.C33_call_partial",
    "Jettison.Props.C33_concurrent_partial",
    "Jettison.Props.C33_fair_partial",
    "Jettison.Props.C33_self_slice_wrong",
    "Jettison.Props.C33_cycle_wrong",
    "Jettison.Props.ring_fair",
    "Jettison.Props.ring_all_finite"
   ],
   "note": "Proved for every finite set of types, recursive ones included, in which no type is made of itself without a struct in between, and for every value without cycles; also with caches shared with other goroutines. C33_types_iff says exactly which types are prepared in the end: those without an endless chain of types; on the others no call returns (C33_endless_wrong, C33_endless_concurrent_wrong). For data, C33_visits_partial: a call ends if what it visits (not behind methods, native types or hidden members) has no endless chain; C33_cyclic_wrong: with one it never succeeds, whatever the depth. type T []T and cyclic data do not end (C33_self_slice_wrong, C33_cycle_wrong), so the full statement is false."
  },
  {
   "property": "C34",
   "status": "proved",
   "theorems": [
    "Jettison.Props.C34_disjoint",
    "Jettison.Props.C34_held",
    "Jettison.Props.C34_stable"
   ],
   "note": "with the model's byte arrays, slices, spare capacity, reallocation, and pools that may drop objects or hand out any object in them. Append's destination is an array left to the call"
  },
  {
   "property": "C35",
   "status": "proved",
   "theorems": [
    "Jettison.Props.C31_result",
    "Jettison.Props.C35_history",
    "Jettison.Props.C35_value"
   ],
   "note": "same call in any two executions: same result; and the result depends on the value, not on addresses"
  },
  {
   "property": "C36",
   "status": "partial",
   "theorems": [
    "Jettison.Props.C36_reads_the_value_partial",
    "Jettison.Props.C36_array1_wrong",
    "Jettison.Props.C36_iface_wrong",
    "Jettison.Props.C36_recv_wrong",
    "Jettison.Props.C36_func_wrong",
    "Jettison.Props.C36_holds",
    "Jettison.Props.C36_held",
    "Jettison.Props.C22_fork_wrong"
   ],
   "note": "Proved for all values (ReprE) but those on which the code does misread, each kind with a counterexample theorem: an interface that holds an array of one pointer, a value of a map, function or channel type (or of a struct or array of one) with a value method, a non-nil interface with methods none of which is a marshaler method; and structs whose routes fork (C22_fork_wrong). In a universe without such types ReprE is the layout of the compiler (C36_holds, C36_held)."
  },
  {
   "property": "C37",
   "status": "proved",
   "theorems": [
    "Jettison.Props.C37_as_string",
    "Jettison.Props.C37_base64",
    "Jettison.Props.C37_array"
   ],
   "note": ""
  },
  {
   "property": "C38",
   "status": "partial",
   "theorems": [
    "Jettison.Props.C38_scalar",
    "Jettison.Props.C38_string_iff",
    "Jettison.Props.C38_string_partial",
    "Jettison.Props.C38_others",
    "Jettison.Props.C43_pointer",
    "Jettison.Props.C38_string_wrong",
    "Jettison.Props.C38_other_string_wrong",
    "Jettison.Props.C38_native_wrong"
   ],
   "note": "Proved for booleans and numbers. For strings C38_string_iff says exactly when it holds: the content of the JSON string is a JSON text of the value if and only if the string has no quote, backslash or control character in it, and it is the text without the option if and only if nothing is escaped there; false otherwise (C38_string_wrong: no JSON text; C38_other_string_wrong: the text of another string). Pointers: C43_pointer carries the option to the target, nil is null. The natively handled basic types ignore the option (C38_others, C38_native_wrong)."
  },
  {
   "property": "C39",
   "status": "partial",
   "theorems": [
    "Jettison.Props.C39_members",
    "Jettison.Props.C39_bad_key",
    "Jettison.Props.C39_same_partial",
    "Jettison.Props.C39_same_iff",
    "Jettison.Props.C39_nil_value_wrong",
    "Jettison.Props.C39_nil_text_key_wrong"
   ],
   "note": "The full statement is false for nil values and nil text keys (OddEntry in Spec/Held); proved without them, for maps with values of interface types and of any other types, and C39_same_iff says that with them the two are never encoded the same."
  },
  {
   "property": "C40",
   "status": "proved",
   "theorems": [
    "Jettison.Props.C40_field_name",
    "Jettison.Props.C40_key"
   ],
   "note": "The Unicode letter and digit tables are parameters; only their values on ASCII and U+FFFD are assumed (TablesOk). Go field names are assumed to be Go identifiers."
  },
  {
   "property": "C41",
   "status": "proved",
   "theorems": [
    "Jettison.Props.C41_parse_tag",
    "Jettison.Props.C41_contains",
    "Jettison.Props.C41_field_options"
   ],
   "note": ""
  },
  {
   "property": "C42",
   "status": "proved",
   "theorems": [
    "Jettison.Props.C42_unsupported",
    "Jettison.Props.C42_stops"
   ],
   "note": ""
  },
  {
   "property": "C43",
   "status": "proved",
   "theorems": [
    "Jettison.Props.C43_transparent",
    "Jettison.Props.C43_chain",
    "Jettison.Props.C43_chain_nil",
    "Jettison.Props.C43_pointer",
    "Jettison.Props.C43_interface",
    "Jettison.Props.C43_needs_no_pointer_methods"
   ],
   "note": "Any two values that lead to the same value through any chains of non-nil pointers and interfaces encode alike, errors included; chains ending in nil give null. For values whose types have no methods that need an address (C43_needs_no_pointer_methods shows the condition is needed) and for all types but those on which the code misreads (Ready, see C36)."
  },
  {
   "property": "C44",
   "status": "proved",
   "theorems": [
    "Jettison.Props.C44_context"
   ],
   "note": ""
  },
  {
   "property": "C45",
   "status": "proved",
   "theorems": [
    "Jettison.Props.C45_nil_receiver",
    "Jettison.Props.C45_nil_key",
    "Jettison.Props.C45_nil_iface_key_wrong"
   ],
   "note": "A nil interface as a map key gives a key without quotes (C45_nil_iface_key_wrong), which is not part of the claim."
  },
  {
   "property": "C46",
   "status": "partial",
   "theorems": [
    "Jettison.Props.C26_C46_relay_partial",
    "Jettison.Props.C46_text_iff",
    "Jettison.Props.C46_text_wrong"
   ],
   "note": "Results are relayed as documented, but those of MarshalText are not escaped (C46_text_wrong). C46_text_iff: such a text becomes a JSON string with that text if and only if there is no quote, backslash or control character in it."
  },
  {
   "property": "C47",
   "status": "proved",
   "theorems": [
    "Jettison.Props.C47_compact_html_safe"
   ],
   "note": ""
  },
  {
   "property": "C48",
   "status": "proved",
   "theorems": [
    "Jettison.Props.C48_denotes_one_tree",
    "Jettison.Props.C48_compact_is_text"
   ],
   "note": ""
  },
  {
   "property": "C49",
   "status": "proved",
   "theorems": [
    "Jettison.Props.C49_exact_rule"
   ],
   "note": ""
  },
  {
   "property": "C50",
   "status": "proved",
   "theorems": [
    "Jettison.Props.C50_option_scope"
   ],
   "note": "For all types but those on which the code misreads (Ready, see C36)."
  },
  {
   "property": "C51",
   "status": "proved",
   "theorems": [
    "Jettison.Props.C51_cause",
    "Jettison.Props.C51_panic",
    "Jettison.Props.C51_success",
    "Jettison.Props.C51_noticed",
    "Jettison.Props.C51_iff",
    "Jettison.Props.C51_plain",
    "Jettison.Props.big_faultless"
   ],
   "note": "The panics that are not those of user methods are findings 9 and 10. For all types but those on which the code misreads (Ready, see C36); for C51_noticed and C51_iff user methods return the same whenever they are called; of the natively handled types only time.Time has a MarshalText method (StdText), as in Go."
  },
  {
   "property": "C52",
   "status": "proved",
   "theorems": [
    "Jettison.Props.C52_markup",
    "Jettison.Props.C52_embeddable",
    "Jettison.Props.C52_default",
    "Jettison.Props.C52_options_wrong",
    "Jettison.Props.markV_text"
   ],
   "note": "For all types but those on which the code misreads (Ready, see C36). C52_options_wrong shows that each option and the condition on MarshalText matter."
  },
  {
   "property": "C53",
   "status": "proved",
   "theorems": [
    "Jettison.Props.C53_utf8"
   ],
   "note": "Go field names are identifiers (GoNames). For all types but those on which the code misreads (Ready, see C36)."
  },
  {
   "property": "C54",
   "status": "proved",
   "theorems": [
    "Jettison.Props.C54_message",
    "Jettison.Props.C54_distinct",
    "Jettison.Props.C54_unwrap",
    "Jettison.Props.C54_unwrap_none",
    "Jettison.Props.C54_option",
    "Jettison.Props.C54_duration_name",
    "Jettison.Props.C54_duration_names",
    "Jettison.Props.blame_error",
    "Jettison.Props.nan_issued"
   ],
   "note": "Names of types, the verb %q and the messages of user errors are parameters; quoting is injective. C54_distinct assumes type names without a colon. For all types but those on which the code misreads (Ready, see C36)."
  },
  {
   "property": "C55",
   "status": "proved",
   "theorems": [
    "Jettison.Props.C55_lossless",
    "Jettison.Props.C55_equal",
    "Jettison.Props.stock_carried",
    "Jettison.Props.node3_carried",
    "Jettison.Props.unitsFmt_readsBack"
   ],
   "note": "Carried (Spec/Lossless) is the data whose text keeps everything; interfaces (dynamic type), user methods and string-tagged strings with escapes are outside of it. strconv's shortest digits represent the float uniquely (ReadsBack). For all types but those on which the code misreads (Ready, see C36)."
  },
  {
   "property": "C56",
   "status": "proved",
   "theorems": [
    "Jettison.Props.C56_bytes",
    "Jettison.Props.C56_value",
    "Jettison.Props.C56_unique",
    "Jettison.Props.C56_exact",
    "Jettison.Props.C56_complete",
    "Jettison.Props.C56_iff"
   ],
   "note": "Writes (Spec/Writes) is the description; C56_unique and C56_exact show that it leaves no choice (with sorted maps in which entries written with the same key are written with the same value), C56_complete that a value with a text is encoded without error, C56_iff both at once where the call ends. The digits of floats and the texts of custom time layouts are those of the standard library. Go's time invariants (int64 seconds, nanoseconds below a second) are assumed (TimesFine); times of year 0 are described as they are written (finding 5). For all types but those on which the code misreads (Ready, see C36)."
  },
  {
   "property": "C57",
   "status": "partial",
   "theorems": [
    "Jettison.Props.C57_sound_partial",
    "Jettison.Props.C57_complete_partial",
    "Jettison.Props.C57_iff_partial",
    "Jettison.Props.writes_iff_std",
    "Jettison.Props.stdV_std",
    "Jettison.Props.C57_order_wrong",
    "Jettison.Props.C57_semicolon_wrong"
   ],
   "note": "StdWrites (Spec/Std) describes what encoding/json (Go 1.17 to 1.21) writes; its sources are not at hand, so this description is trusted. Proved for the values of StdAlike, which leave out the differences the README names and the findings 2, 3, 5, 6, 7, 9, 17, 22 and 23; NoSemicolons is finding 24. C57_order_wrong and C57_semicolon_wrong and the theorems of those findings refute the full statement. Zones a day or more from UTC, which newer versions of encoding/json refuse, are left out. For all types but those on which the code misreads (Ready, see C36)."
  },
  {
   "property": "C58",
   "status": "proved",
   "theorems": [
    "Jettison.Props.C58_error",
    "Jettison.Props.C58_panic",
    "Jettison.Props.C58_unique",
    "Jettison.Props.C58_exact",
    "Jettison.Props.C58_iff",
    "Jettison.Props.C58_any_entry"
   ],
   "note": "First (Spec/First) is the specification. C58_error and C58_panic: what a call reports is the first fault; C58_unique: there is only one, if no map has two entries at fault (OneEntry); C58_exact and C58_iff: a call that ends reports it. C58_any_entry shows that OneEntry is needed. User methods are pure (PathFree). For all types but those on which the code misreads (Ready, see C36)."
  },
  {
   "property": "C59",
   "status": "proved",
   "theorems": [
    "Jettison.Props.C59_result",
    "Jettison.Props.C59_hidden",
    "Jettison.Props.C59_concurrent"
   ],
   "note": "Shows (Spec/Shown) says what two values may differ in; C59_hidden is the case of one struct, C59_concurrent that of calls that share caches and pools with others. A type with a method is not looked into, as the method may look at anything. The orders in which maps are iterated are the same in both calls (C23 and C24 are about other orders). The converse is C55. For all types but those on which the code misreads (Ready, see C36)."
  },
  {
   "property": "C60",
   "status": "proved",
   "theorems": [
    "Jettison.Props.C60_result",
    "Jettison.Props.C60_delegate",
    "Jettison.Props.C60_method",
    "Jettison.Props.C60_raw",
    "Jettison.Props.C60_raw_text",
    "Jettison.Props.C60_method_text",
    "Jettison.Props.C60_html_needed"
   ],
   "note": "Portable: the compact text of a JSON value without characters to be escaped; C60_result says that calls return such a text (on data that C30 covers, and texts copied as they are that have nothing to be escaped), the other theorems that it is written as it is: anywhere in a value (_text) and by a call. C60_html_needed: not so if the first call does not escape HTML."
  },
  {
   "property": "C61",
   "status": "proved",
   "theorems": [
    "Jettison.Props.C61_calls",
    "Jettison.Props.C61_error_last",
    "Jettison.Props.C61_same",
    "Jettison.Props.C61_none",
    "Jettison.Props.C61_stateful",
    "Jettison.Props.C61_stateless",
    "Jettison.Props.asks_parts"
   ],
   "note": "Model/Talk is the encoder as a conversation with the methods; Invoked (Spec/Invoked) says which calls are meant, asks_parts that the parts are those of Encodes1. Course is any way the conversation can go, whatever the methods return. C61_stateful: with methods that have a state, a call returns what it returns with methods that know the step of the encoding, the kind of methods (Heap.meth) of all the other theorems. Methods do not change the data that is encoded. For all types but those on which the code misreads (Ready, see C36)."
  },
  {
   "property": "C62",
   "status": "proved",
   "theorems": [
    "Jettison.Props.C62_kept",
    "Jettison.Props.C62_reads",
    "Jettison.Props.C62_spare"
   ],
   "note": "in the model with byte arrays, lengths, spare capacity and reallocation (Model/Shared, Model/Calls). The caller leaves the array to the call while it runs; appending methods only append (HonestAppend) and AppendFormat likewise."
  },
  {
   "property": "C63",
   "status": "proved",
   "theorems": [
    "Jettison.Props.C63_arrays",
    "Jettison.Props.C63_objects",
    "Jettison.Props.C63_placeholder",
    "Jettison.Props.C63_final"
   ],
   "note": "at the level of the operations of Model/Shared: byte arrays, pooled objects and the variables ins and wg of placeholders. The maps and pools of package sync are synchronised by themselves; what an instruction captured is not written after it is made."
  },
  {
   "property": "C64",
   "status": "proved",
   "theorems": [
    "Jettison.Props.C64_result",
    "Jettison.Props.C64_inner",
    "Jettison.Props.C64_no_deadlock",
    "Jettison.Props.C64_generator",
    "Jettison.Props.C64_ended",
    "Jettison.Props.C64_ended_inner",
    "Jettison.Props.C64_fair"
   ],
   "note": "a method makes calls in its own goroutine (MStep of Model/Calls), also Append to the destination it was given, which C64_inner and all theorems about concurrent calls cover, in goroutines it waits for, or both at the same time (Model/Nested). What the methods return is a parameter, as elsewhere, so that it may depend on what the inner calls return. Inner calls may panic, and the method may recover or panic itself: the objects the inner call had taken from the pools are lost, those of the calls around it are not (examples callQ). C64_fair: finitely many calls are made within each call, and the stack does not overflow."
  },
  {
   "property": "C65",
   "status": "proved",
   "theorems": [
    "Jettison.Props.C65_text",
    "Jettison.Props.C65_call",
    "Jettison.Props.C65_string",
    "Jettison.Props.C65_tight",
    "Jettison.Props.C65_base64",
    "Jettison.Props.big_limits"
   ],
   "note": "Val.nodes and Val.chars (Spec/Size) measure a value as a tree: what two pointers point to counts twice, as it is written twice. Limits are the bounds on what is not in the value. The proof shows that the members of a struct lie apart (no path leads through the field of another), so that embedding does not multiply them. For all types but those on which the code misreads (Ready, see C36)."
  },
  {
   "property": "C66",
   "status": "proved",
   "theorems": [
    "Jettison.Props.C66_value",
    "Jettison.Props.C66_cut",
    "Jettison.Props.C66_unique",
    "Jettison.Props.C66_exact",
    "Jettison.Props.C66_iff",
    "Jettison.Props.C66_no_text",
    "Jettison.Props.C66_append"
   ],
   "note": "Cut (Spec/Cut) says which bytes are left; C66_cut that only these are, C66_unique that there is no choice if maps are sorted, C66_exact and C66_iff that they are if the call ends, C66_no_text that they are no JSON text. That the error is the right one is C58. For all types but those on which the code misreads (Ready, see C36); times within the range of AppendFormat (TimesFine), methods that append and do not look at the path (PathFree) as in C56."
  },
  {
   "property": "C67",
   "status": "proved",
   "theorems": [
    "Jettison.Props.C67_no_wrong_access"
   ],
   "note": "Model/Live is the encoder against memory that changes: every read is made of the memory of that moment, the iterator of a map is asked for each entry in turn. Careful (Spec/Live) says that methods are Go code: variables keep their types and hold data of them (Sane). A call that does not end (a ring) is cut off after n levels and lim entries of a map, for every n and lim. For all types but those on which the code misreads (Grounds, see C36). Other goroutines that write the data meanwhile are a data race in the caller and not covered."
  },
  {
   "property": "C68",
   "status": "proved",
   "theorems": [
    "Jettison.Props.C68_frame"
   ],
   "note": "the model of changing memory (Model/Live) gives the results of the model of all the other theorems (marshalOpts, appendOpts) when the part of memory that holds the value stays as it is (Kept). lim is any number greater than the number of entries of each map."
  },
  {
   "property": "C69",
   "status": "proved",
   "theorems": [
    "Jettison.Props.C69_well_formed"
   ],
   "note": "In Model/Live. Decent (Spec/LiveText) asks of the data at every moment what Fine (Spec/Doc) asks of a value that stands still. As in C67, Grounds leaves out the types on which the code misreads, and Careful says that methods are Go code."
  },
  {
   "property": "C70",
   "status": "proved",
   "theorems": [
    "Jettison.Props.C70_once",
    "Jettison.Props.C70_kept",
    "Jettison.Props.C70_learnt",
    "Jettison.Props.C70_quiet",
    "Jettison.Props.C70_lost_wrong"
   ],
   "note": "On Model/Shared, for all schedules. C70_kept and C70_learnt are about executions in which calls do not overlap, as the statement says; C70_lost_wrong is an execution of two overlapping calls after which the type of one of them is not in the cache (finding 25), so that part of the comment at instruction.go:21 (eventually consistent) needs the calls to be made again."
  },
  {
   "property": "C71",
   "status": "proved",
   "theorems": [
    "Jettison.Props.C71_route_exact",
    "Jettison.Props.C71_route_iff",
    "Jettison.Props.C71_type_iff",
    "Jettison.Props.C71_no_fork",
    "Jettison.Props.C71_own_arrays",
    "Jettison.Props.C71_three_levels"
   ],
   "note": "RecordedStep (Spec/Route) is the rule, over all embedding paths, without search order or heap. C71_route_exact gives the recorded route for every type graph and growth function, C71_route_iff and C71_type_iff say when it is the true one, C71_no_fork that it is without forks, C71_three_levels that it is for at most three embedded structs with doubling growth (growDouble); C22_fork_wrong has four."
  },
  {
   "property": "C72",
   "status": "proved",
   "theorems": [
    "Jettison.Props.C72_frame",
    "Jettison.Props.C72_other_types",
    "Jettison.Props.C72_part",
    "Jettison.Props.C72_same_value",
    "Jettison.Props.C72_bytes",
    "Jettison.Props.C72_document",
    "Jettison.Props.C72_error",
    "Jettison.Props.C72_success",
    "Jettison.Props.C72_cut",
    "Jettison.Props.C72_malformed"
   ],
   "note": "Family (Spec/Local) is a set of types with their components, MadeOf says that the interfaces in a value hold types of the set. C72_part: a value whose types meet the conditions of the theorems about memory (ReadyFor) is encoded as in a program all of whose types do (Ready), so that these theorems hold of it in every program; they are restated under ReadyFor for the text (C72_bytes, C72_document) and for the error (C72_error, C72_success), for what is left beside it (C72_cut) and for malformed texts (C72_malformed), where the specification is read in the program itself, not in the one cut down. The example has a program with a type that is misread (finding 15), an interface of this type in memory, and a value beside it."
  },
  {
   "property": "C73",
   "status": "proved",
   "theorems": [
    "Jettison.Props.C73_text",
    "Jettison.Props.C73_malformed",
    "Jettison.Props.C73_spaced",
    "Jettison.Props.C73_spoilt",
    "Jettison.Props.C73_leaf",
    "Jettison.Props.C73_fine",
    "Jettison.Props.C73_hidden"
   ],
   "note": "C30 says which values give JSON, under conditions on methods, keys and options; C73 is the other direction, without these conditions: for every value, method and option list, output that is not JSON has one of the causes of Spoils or SpoilsMember (Spec/Spoils) in a part that is encoded (Encodes). C73_spoilt: a value with a cause of Spoils has a malformed text; for values without parts the causes are exact (C73_leaf). A malformed part need not spoil the whole (C73_hidden: without escapes one entry of a map looks like two), so there is no such converse for composed values. C73_fine: the values of C30 have none of the causes. Methods must answer by their receiver for C73_spoilt and C73_leaf (PathFree)."
  },
  {
   "property": "C74",
   "status": "proved",
   "theorems": [
    "Jettison.Props.C74_calls",
    "Jettison.Props.C74_text",
    "Jettison.Props.C74_options",
    "Jettison.Props.C74_success",
    "Jettison.Props.C74_error"
   ],
   "note": "Trimmed (Spec/Trim) relates the two texts; withoutLists are the options of the call less the lists. A member that is dropped for being null (finding 1) leaves a comma before the first member; the lists may hide such a member, so that Trimmed allows that comma in either text. Of an unsorted map the order of the entries may differ between two calls anyway, and entries that are written with the same key may be swapped by the sort (KeysDiffer excludes it)."
  },
  {
   "property": "C75",
   "status": "proved",
   "theorems": [
    "Jettison.Props.C75_result",
    "Jettison.Props.C75_same",
    "Jettison.Props.C75_calls",
    "Jettison.Props.C75_text",
    "Jettison.Props.C75_error"
   ],
   "note": "Concerned (Spec/Concerns) says of each option what it is about; Unconcerned asks that of every part that is encoded. C75_result and C75_same are for finite data, where calls end (C33); C75_calls has no such bound and includes AppendOpts. Two entries of a map that are written with the same key and different values may be swapped by the sort; KeysTold excludes that."
  },
  {
   "property": "C76",
   "status": "proved",
   "theorems": [
    "Jettison.Props.C76_parts",
    "Jettison.Props.C76_whole",
    "Jettison.Props.C76_error",
    "Jettison.Props.together_writes"
   ],
   "note": "PutTogether (Spec/Compose) puts the text together from a relation R between values and texts; C76_parts: with R the result of every call for the part that ends, in any memory; C76_whole: with R the result of some call. C76_error: a failure of the whole is that of the calls for one value in it. Interfaces with custom methods are not dynamic data; parts themselves are of any type."
  },
  {
   "property": "C77",
   "status": "partial",
   "theorems": [
    "Jettison.Props.C77_pointer_partial",
    "Jettison.Props.C77_nil",
    "Jettison.Props.C77_time",
    "Jettison.Props.C77_ignored",
    "Jettison.Props.C77_unix_wrong",
    "Jettison.Props.C77_raw_wrong"
   ],
   "note": "C77_pointer_partial: the full statement for pointers without methods. The full statement is false for *time.Time and *json.RawMessage: C77_unix_wrong and C77_raw_wrong show it for every time and every message that is not JSON; C77_ignored says that only NoCompact and NoHTMLEscaping have an effect on such pointers, C77_time that without UnixTime and TimeLayout the pointer is encoded as the time, from 0000-12-31 on. What MarshalJSON of the standard library returns is a hypothesis."
  },
  {
   "property": "C78",
   "status": "partial",
   "theorems": [
    "Jettison.Props.C78_calls_partial",
    "Jettison.Props.C78_text_partial",
    "Jettison.Props.C78_added_partial",
    "Jettison.Props.C78_fine",
    "Jettison.Props.C78_dropped_wrong",
    "Jettison.Props.C78_raw_wrong"
   ],
   "note": "C78_calls_partial: for values that are not spoilt (C73) and settled (every json.RawMessage is JSON, no odd keys, no field with omitnil and MarshalJSON). The statement is false without: C78_dropped_wrong, C78_raw_wrong. C78_added_partial: adding them keeps success and data. C78_fine: the values of C30 are such values."
  },
  {
   "property": "C79",
   "status": "proved",
   "theorems": [
    "Jettison.Props.C79_success",
    "Jettison.Props.C79_append",
    "Jettison.Props.C79_error",
    "Jettison.Props.C79_options",
    "Jettison.Props.C79_adding",
    "Jettison.Props.C79_unix_wrong"
   ],
   "note": "NoStricter and Mild are in Spec/Milder. C79_success, C79_append and C79_adding are for finite data, where calls end (C33). C79_unix_wrong shows that UnixTime has to be left out."
  },
  {
   "property": "C80",
   "status": "partial",
   "theorems": [
    "Jettison.Props.C80_calls_partial",
    "Jettison.Props.C80_text_partial",
    "Jettison.Props.C80_same",
    "Jettison.Props.C80_fine",
    "Jettison.Props.C80_keys_wrong"
   ],
   "note": "Recast (Spec/Recast) relates the two trees. C80_calls_partial: for values that are settled (C78) and not spoilt under either option list (C73), without keys of natively handled types unless the options about times agree. The statement is false without the last: C80_keys_wrong; and without the others as for C78. C80_same: with the same options about form the trees are the same data. C80_fine: the values of C30 are such values, if the layout makes texts without quotes and the like. The elements of a byte array are not compared to the bytes, as their type may have an AppendJSON method."
  },
  {
   "property": "C81",
   "status": "proved",
   "theorems": [
    "Jettison.Props.C81_calls",
    "Jettison.Props.C81_text",
    "Jettison.Props.C81_iff",
    "Jettison.Props.C81_declared",
    "Jettison.Props.C81_members"
   ],
   "note": "Renaming (Spec/Rename) relates types by kind, methods and the members of structs; C81_declared and C81_members derive the members from the declarations of fields, embedded ones included, if structs embedded in the one are the same type where those embedded in the other are. C81_calls: equality of bytes for sorted maps whose keys have different texts (C16); success agrees for all options. Messages of errors tell the types and so differ. That related methods answer alike is a hypothesis."
  },
  {
   "property": "C82",
   "status": "proved",
   "theorems": [
    "Jettison.Props.C82_calls",
    "Jettison.Props.C82_map",
    "Jettison.Props.C82_struct"
   ],
   "note": "LikeMap, AnyMap and MemberMap (Spec/Mapped) state the conditions. C82_map and C82_struct relate the texts (as Spec/Writes gives them) in both directions; C82_calls relates calls, the texts if maps are sorted and the keys of maps in the struct have different texts (C16); success agrees for all options."
  },
  {
   "property": "C83",
   "status": "proved",
   "theorems": [
    "Jettison.Props.C83_calls",
    "Jettison.Props.C83_text",
    "Jettison.Props.C83_held",
    "Jettison.Props.C83_addr_wrong"
   ],
   "note": "Generic (Spec/Loosened) relates the values, at any depth. C83_held and C83_text: the texts that Spec/Writes gives are the same. C83_calls: success agrees for all options, the bytes if maps are sorted and their keys have different texts (C16). C83_addr_wrong shows that the condition on slices has to be required. Pointer types with methods or special treatment have to be held as they are (Generic.same)."
  },
  {
   "property": "C84",
   "status": "proved",
   "theorems": [
    "Jettison.Props.C84_calls",
    "Jettison.Props.C84_text",
    "Jettison.Props.C84_held",
    "Jettison.Props.C84_held_calls",
    "Jettison.Props.C84_string_wrong"
   ],
   "note": "SameMembers (Spec/Flat) relates the members shown (C49 tells the members of a type, LeftOut which are not shown). C84_text: the texts that Spec/Writes gives are the same, in addressable positions too. C84_held and C84_held_calls are for structs some of whose members are held in interfaces (HeldMembers in Spec/FlatLoose). C84_calls: success agrees for all options, the bytes if maps are sorted and their keys have different texts (C16)."
  },
  {
   "property": "C85",
   "status": "partial",
   "theorems": [
    "Jettison.Props.C85_data",
    "Jettison.Props.C85_back",
    "Jettison.Props.C85_calls_partial",
    "Jettison.Props.C85_back_calls_partial"
   ],
   "note": "Untyped (Spec/Data) relates the values, at any depth. C85_data and C85_back, without restriction on the values: every tree that Spec/Doc prescribes for the value is one for the generic form, and every tree of the generic form is one of the value up to the order of members. The theorems with _partial carry this over to calls for the one and for the other by C30_document_partial, and so for the values to which that applies (AllFine, the findings named there); for others the text is in general not that of a prescribed tree at all."
  }
 ]
}