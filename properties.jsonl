{"id": "C01", "title": "String values encode to one well-formed JSON string token", "statement": "Unless NoStringEscaping is given, the bytes appended for a Go string are an opening quote, a body accepted by the RFC 8259 string grammar (no raw quote, backslash or control byte; every backslash starts a legal escape) and a closing quote. So the token ends exactly where the encoder ended it.", "quantifier": "every byte string, every combination of NoHTMLEscaping and NoUTF8Coercion, every destination buffer", "why_tests_cant": "Byte strings are unbounded and the loop carries an accumulation window (at/i) whose errors show only for particular mixes of clean, escaped, multi-byte and invalid bytes.", "anchors": ["encode.go:encodeString", "encode.go:appendEscapedBytes"]}
{"id": "C02", "title": "String values survive a decode", "statement": "Decoding the encoded string gives back the original string with each invalid UTF-8 byte replaced by U+FFFD, hence exactly the original when it is valid UTF-8, with and without NoHTMLEscaping.", "quantifier": "every byte string; both settings of NoHTMLEscaping", "why_tests_cant": "The claim relates encoder and decoder on all sequences of well-formed and ill-formed UTF-8.", "anchors": ["encode.go:encodeString", "encode.go:appendEscapedBytes"]}
{"id": "C03", "title": "Default string output is safe to embed in HTML and JSONP", "statement": "With default options the bytes produced for a string contain no raw <, > or & and no raw U+2028 or U+2029.", "quantifier": "every byte string", "why_tests_cant": "One missed byte position anywhere in an unbounded input is a script-injection hole.", "anchors": ["encode.go:appendEscapedBytes"]}
{"id": "C04", "title": "NoUTF8Coercion keeps every byte", "statement": "With NoUTF8Coercion the decoded string is byte-for-byte the input, valid UTF-8 or not.", "quantifier": "every byte string; both settings of NoHTMLEscaping", "why_tests_cant": "Depends on every interleaving of invalid bytes with escaped ASCII.", "anchors": ["encode.go:appendEscapedBytes", "options.go:NoUTF8Coercion"]}
{"id": "C05", "title": "NoStringEscaping copies strings verbatim and overrides the other string options", "statement": "With NoStringEscaping the output is the quote, the raw bytes, the quote, whatever NoHTMLEscaping and NoUTF8Coercion say.", "quantifier": "every byte string; every combination of the other options", "why_tests_cant": "A statement about all option combinations and all strings.", "anchors": ["encode.go:appendEscapedBytes", "options.go:NoStringEscaping"]}
{"id": "C06", "title": "Default string output is valid UTF-8 and distinct strings stay distinct", "statement": "With UTF-8 coercion on, the bytes produced for any string are valid UTF-8, and two different valid UTF-8 strings never encode to the same token.", "quantifier": "every byte string / every pair of valid UTF-8 strings", "why_tests_cant": "Injectivity quantifies over pairs of unbounded inputs.", "anchors": ["encode.go:appendEscapedBytes"]}
{"id": "C07", "title": "json.Number validation is exactly the JSON number grammar", "statement": "Without NoNumberValidation a json.Number is accepted if and only if its text matches the RFC 8259 number production (the empty Number counts as 0), and is then emitted unchanged; otherwise an error is returned and nothing is appended.", "quantifier": "every byte string used as a json.Number", "why_tests_cant": "An iff over all strings; a regexp comparison on samples cannot establish it.", "anchors": ["number.go:isValidNumber", "encode.go:encodeNumber"]}
{"id": "C08", "title": "Integers are canonical decimal and lose nothing", "statement": "Every integer kind encodes to the canonical decimal numeral of its value: a valid JSON number with no leading zero or plus sign that reads back to the same integer; different integers give different texts.", "quantifier": "every value of every signed and unsigned width, including the extremes", "why_tests_cant": "2^64 values per kind.", "anchors": ["integer.go:encodeInt", "integer.go:encodeUint64", "encode.go:encodeDuration"]}
{"id": "C09", "title": "Floats: non-finite rejected, finite are JSON numbers of the same value", "statement": "NaN and infinities yield UnsupportedValueError and append nothing; every finite float yields a valid JSON number whose decimal value is exactly the one strconv printed, the e-09 to e-9 clean-up included; exponent form is used exactly below 1e-6 and from 1e21 up.", "quantifier": "every float32/float64, every destination buffer", "why_tests_cant": "2^64 values; the in-place clean-up edits the destination tail and could touch earlier bytes.", "anchors": ["encode.go:appendFloat", "encode.go:encodeFloat32", "encode.go:encodeFloat64"]}
{"id": "C10", "title": "RFC 3339 times show the right calendar date, time, fraction and zone", "statement": "With the default layout or TimeLayout(time.RFC3339), a time whose year is accepted encodes as the quoted RFC 3339 text of its local civil date (proleptic Gregorian), time of day, fractional seconds without trailing zeros (nano layout only), and zone offset.", "quantifier": "every instant, nanosecond and zone offset whose local year is in [0,9999]", "why_tests_cant": "3.6 million days times 86400 seconds times offsets; the hand-written Rata Die arithmetic is in wrapping uint32.", "anchors": ["time.go:appendRFC3339Time", "time.go:rdnToYmd", "encode.go:encodeTime"]}
{"id": "C11", "title": "Times outside years 0..9999 are refused; UnixTime wins over any layout", "statement": "A time.Time whose year is below 0 or above 9999 yields an error with nothing appended under every option; otherwise, with UnixTime, the output is the decimal Unix timestamp whatever TimeLayout says.", "quantifier": "every time value, every layout, every option combination", "why_tests_cant": "Statement over all times and all option values.", "anchors": ["encode.go:encodeTime", "options.go:UnixTime"]}
{"id": "C12", "title": "Duration strings denote the exact duration", "statement": "With DurationString the text between the quotes, read as a Go duration (signed sum of decimal numbers with units h, m, s, ms, us, ns), denotes exactly the same number of nanoseconds, for all int64 values including the minimum; the fixed 32 byte scratch area never overflows.", "quantifier": "every int64 duration", "why_tests_cant": "2^64 values; the sign wrap at -2^63 and trailing zero elision interact.", "anchors": ["time.go:appendDuration", "time.go:fmtFrac", "time.go:fmtInt"]}
{"id": "C13", "title": "Numeric duration formats truncate toward zero", "statement": "Nanosecond, microsecond and millisecond formats give the decimal integer obtained by dividing the duration by 1, 1000, 1000000 and discarding the fraction; an out-of-range format value never reaches encoding because it is rejected as an invalid option.", "quantifier": "every int64 duration, every format value", "why_tests_cant": "Sign and rounding behaviour over 2^64 values.", "anchors": ["encode.go:encodeDuration", "time.go:valid", "options.go:validate"]}
{"id": "C14", "title": "Compaction keeps the JSON value and removes all insignificant space", "statement": "For any well-formed JSON text returned by MarshalJSON or held in a json.RawMessage, the compacted output is a well-formed JSON text without insignificant whitespace that denotes the same value (strings equal after decoding), with or without HTML escaping.", "quantifier": "every well-formed JSON text with any whitespace layout; both settings of NoHTMLEscaping", "why_tests_cant": "JSON texts are unbounded and nested; the scanner keeps a string/escape state and a copy window.", "anchors": ["encode.go:appendCompactJSON", "encode.go:encodeJSONMarshaler", "encode.go:encodeRawMessage"]}
{"id": "C15", "title": "Compaction is idempotent", "statement": "Compacting the compaction of a well-formed JSON text with the same setting changes nothing.", "quantifier": "every well-formed JSON text; both settings of NoHTMLEscaping", "why_tests_cant": "Unbounded inputs; on malformed raw messages it is in fact false.", "anchors": ["encode.go:appendCompactJSON"]}
{"id": "C16", "title": "Byte slices are RFC 4648 base64 and decode back", "statement": "A non-nil byte slice encodes as a quoted padded standard base64 text that decodes to the same bytes; reserving room in the destination never writes outside its capacity and keeps earlier bytes.", "quantifier": "every byte sequence, every destination length and capacity", "why_tests_cant": "Length modulo 3 and capacity arithmetic over all sizes.", "anchors": ["encode.go:encodeByteSlice"]}
{"id": "C17", "title": "Struct objects never repeat a key", "statement": "The keys of the fields chosen for a struct type are pairwise different, so encoding a struct never emits two members with the same name from its own fields.", "quantifier": "every struct type graph, with any embedding (pointers and recursion included) and any tags", "why_tests_cant": "Type graphs are unbounded and the selection runs a breadth-first search with counters.", "anchors": ["struct.go:structFields", "struct.go:filterByVisibility", "struct.go:dominantField"]}
{"id": "C18", "title": "Embedded field visibility follows Go rules plus JSON tags", "statement": "A field reachable through unnamed embedded structs is encoded iff among all reachable fields with its JSON name it is the only one at the least depth, or the only tagged one at that depth; otherwise no field of that name at that depth is encoded.", "quantifier": "every struct type graph", "why_tests_cant": "Relates an efficient pruned search to an unpruned, possibly infinite, set of paths.", "anchors": ["struct.go:structFields", "struct.go:scanFields", "struct.go:dominantField"]}
{"id": "C19", "title": "Struct members appear in declaration order", "statement": "The encoded fields of a struct appear in lexicographic order of their index path, i.e. declaration order with embedded fields in place.", "quantifier": "every struct type graph", "why_tests_cant": "Ordering after two different sorts and a filter over any number of fields.", "anchors": ["struct.go:structFields", "struct.go:byIndex"]}
{"id": "C20", "title": "AllowList and DenyList decide exactly which members appear", "statement": "A field that would otherwise be encoded is skipped iff its JSON name is in the DenyList, or an AllowList was given that lacks it; deny has precedence; an empty AllowList hides every field; without lists nothing is skipped. The rule holds at every nesting level.", "quantifier": "every field name, every pair of lists, every nesting depth", "why_tests_cant": "All combinations of lists and nested structs.", "anchors": ["options.go:isDeniedField", "encode.go:encodeStruct"]}
{"id": "C21", "title": "omitempty and omitnil drop exactly the empty or nil members", "statement": "A field tagged omitempty is dropped iff its value is false, 0, 0.0, empty string, nil pointer, nil interface or an empty array, slice or map; a field tagged omitnil is dropped iff it holds a nil pointer, interface, slice or map, or its MarshalJSON result is the literal null; no other field is dropped.", "quantifier": "every value of every type, every tag combination", "why_tests_cant": "Case analysis over all kinds and values.", "anchors": ["encode.go:encodeStruct", "types.go:emptyFuncOf", "instruction.go:newStructFieldsInstr"]}
{"id": "C22", "title": "Fields behind a nil embedded pointer are skipped, others are read at their own place", "statement": "When an embedded pointer on the path to a promoted field is nil the field is omitted and the rest of the object is unaffected; otherwise the emitted member is the value of that very field, at any embedding depth and with any number of embedded siblings.", "quantifier": "every struct type graph and value", "why_tests_cant": "Depends on embedding depth and on how slices of offsets share storage while types are scanned.", "anchors": ["encode.go:encodeStruct", "struct.go:scanFields"]}
{"id": "C23", "title": "Default map output is sorted and independent of iteration order", "statement": "With default options the members of a map appear in ascending byte order of their encoded keys, each entry exactly once, and the bytes are the same for every iteration order the runtime may choose.", "quantifier": "every map, every iteration order (permutation of entries)", "why_tests_cant": "n! iteration orders; randomised by the runtime.", "anchors": ["encode.go:encodeSortedMap", "map.go:mapElems"]}
{"id": "C24", "title": "UnsortedMap only changes member order", "statement": "With UnsortedMap the members are emitted in iteration order: the multiset of encoded members is the same as with sorting.", "quantifier": "every map, every iteration order", "why_tests_cant": "n! iteration orders.", "anchors": ["encode.go:encodeUnsortedMap", "options.go:UnsortedMap"]}
{"id": "C25", "title": "Nil and empty containers", "statement": "A nil map is null, or {} with NilMapEmpty; a nil slice is null, or [] with NilSliceEmpty; empty non-nil ones are always {} and []; both options affect only nil values.", "quantifier": "every element type, every option combination, every nesting position", "why_tests_cant": "All types and positions.", "anchors": ["encode.go:encodeMap", "encode.go:encodeSlice", "encode.go:encodeByteSlice"]}
{"id": "C26", "title": "Marshaler precedence", "statement": "For a type with custom methods the method used is the first available of AppendJSONContext, AppendJSON, MarshalJSON, MarshalText; pointer-receiver methods are used only when the value is addressable and the type is not itself a pointer; the special standard types never use custom methods; types with none use their kind.", "quantifier": "every combination of method sets, addressability and kind", "why_tests_cant": "All combinations of method sets, positions and addressability.", "anchors": ["instruction.go:newInstruction", "instruction.go:newMarshalerTypeInstr"]}
{"id": "C27", "title": "Append is prefix plus Marshal", "statement": "If encoding succeeds, Append(dst, v) returns dst followed by exactly the bytes Marshal(v) returns; the existing content of dst never influences the encoding and is never altered, on success or on error.", "quantifier": "every value, every destination content, every option list", "why_tests_cant": "Every instruction both reads and rewrites the destination tail (float clean-up, null elision), for all prefixes.", "anchors": ["json.go:Append", "json.go:AppendOpts", "json.go:marshalJSON", "json.go:appendJSON"]}
{"id": "C28", "title": "Errors stop encoding and Marshal returns no bytes", "statement": "If any nested element, key, value or custom method fails, the whole call fails with that first error and Marshal returns nil bytes; it never returns partial JSON as a success.", "quantifier": "every value with any number of failing parts at any depth", "why_tests_cant": "Error propagation through every recursive combinator.", "anchors": ["json.go:marshalJSON", "encode.go:encodeStruct", "encode.go:encodeArray", "encode.go:encodeSortedMap"]}
{"id": "C29", "title": "Options combine predictably", "statement": "Nil options are ignored; for TimeLayout, DurationFormat, WithContext, AllowList and DenyList the last one wins; flag options are idempotent and commute; a nil context, empty layout or unknown duration format at the end is rejected with an InvalidOptionError before anything is encoded and no bytes are returned; options never affect other calls.", "quantifier": "every list of options of any length and order", "why_tests_cant": "All orders and lengths of option lists.", "anchors": ["options.go:apply", "options.go:validate", "json.go:MarshalOpts"]}
{"id": "C30", "title": "Marshal output is well-formed JSON denoting the value", "statement": "For every value built from Go's own kinds and the natively handled types (no user methods, no raw JSON), with string escaping on, a successful encoding is a single well-formed JSON text and parsing it gives the JSON tree that the documentation prescribes for the value.", "quantifier": "every type graph and value of that fragment, at any nesting depth, every option combination leaving escaping on", "why_tests_cant": "Unbounded nesting and every combination of types, tags, options.", "anchors": ["json.go:Marshal", "instruction.go:newInstruction", "encode.go"]}
{"id": "C31", "title": "Concurrent first use of types is safe", "statement": "Under every interleaving of any number of goroutines encoding any types for the first time, each call encodes with the instruction of its own type; a lost cache update only costs recomputation.", "quantifier": "every number of goroutines, every schedule, every sequence of types", "why_tests_cant": "Schedules are unbounded; the copy-on-write store loses updates by design.", "anchors": ["instruction.go:cachedInstr", "instruction.go:storeInstr", "instruction.go:loadInstr"]}
{"id": "C32", "title": "Recursive struct types: placeholder never runs early and never deadlocks", "statement": "Generation of a struct instruction publishes a placeholder first; under every interleaving a goroutine that picked the placeholder up waits until the real instruction is set and then runs exactly it; the generating goroutine itself never waits, so no deadlock can occur.", "quantifier": "every schedule of any number of goroutines over any set of mutually recursive struct types", "why_tests_cant": "Interleavings of generation and use.", "anchors": ["instruction.go:newStructInstr"]}
{"id": "C33", "title": "Instruction generation terminates", "statement": "Creating the instruction for a type terminates, so the first Marshal of any type returns.", "quantifier": "every finite type graph, recursive types included", "why_tests_cant": "Termination is not observable by testing; recursive slice, map, pointer types must be considered.", "anchors": ["instruction.go:newInstruction", "instruction.go:newStructInstr", "struct.go:structFields"]}
{"id": "C34", "title": "Returned bytes are never shared", "statement": "The slice returned by Marshal is disjoint from every pooled buffer, so no later or concurrent call changes bytes already returned; a pooled buffer is held by at most one call at a time, nested calls included.", "quantifier": "every history of calls (nested, concurrent, failing)", "why_tests_cant": "Histories of pool get/put with reuse are unbounded.", "anchors": ["buffer.go:cachedBuffer", "json.go:marshalJSON", "encode.go:encodeSortedMap"]}
{"id": "C35", "title": "History independence", "statement": "The result of a call depends only on the value and the options: caches and pools warmed by any earlier calls (including failed ones) never change it.", "quantifier": "every history of earlier calls", "why_tests_cant": "Unbounded histories.", "anchors": ["buffer.go", "map.go:releaseMapElems", "instruction.go:cachedInstr"]}
{"id": "C36", "title": "Unsafe reads see the value that was passed", "statement": "For any type, the instruction run on the interface word of the value reads exactly the fields, elements, map entries and pointees of that value, and never misinterprets memory.", "quantifier": "every type graph and every memory representation of a value", "why_tests_cant": "Layout dependent: pointer-shaped values are stored directly in interfaces, others indirectly; mixes are unbounded.", "anchors": ["types.go:isInlined", "unsafe.go:packEface", "instruction.go:wrapInlineInstr", "encode.go:encodeInterface"]}
{"id": "C37", "title": "Byte arrays and raw byte slices", "statement": "With ByteArrayAsString a byte array, and with RawByteSlice a byte slice, encodes as the JSON string whose content is the bytes, under the same escaping rules as a Go string with these bytes; without the options arrays are JSON arrays of numbers and slices are base64.", "quantifier": "every byte sequence, every option combination", "why_tests_cant": "All contents and lengths.", "anchors": ["encode.go:encodeByteArrayAsString", "encode.go:encodeByteSlice", "instruction.go:newArrayInstr"]}
{"id": "C38", "title": "The string tag option wraps the JSON text of the value in a JSON string", "statement": "A basic-type field (or pointer to one) with the string option encodes as a JSON string whose decoded content is the JSON encoding of the value; a nil pointer stays null; other types are unaffected.", "quantifier": "every basic value", "why_tests_cant": "All strings including ones that need escaping.", "anchors": ["encode.go:encodeQuotedString", "instruction.go:wrapQuotedInstr", "instruction.go:newStructFieldsInstr"]}
{"id": "C39", "title": "sync.Map encodes like the equivalent map", "statement": "A sync.Map encodes to the same bytes as a Go map with the same entries; keys that are neither strings, integers nor TextMarshalers give an error.", "quantifier": "every set of entries, every iteration order, sorted or unsorted", "why_tests_cant": "All contents and orders.", "anchors": ["encode.go:encodeSyncMap", "encode.go:appendSyncMapKey"]}
{"id": "C40", "title": "Field keys are well-formed and HTML-safe", "statement": "Whatever the json tag contains, the member key written for a struct field is a well-formed JSON string that decodes to the field's JSON name; with HTML escaping on it has no raw <, > or &; a tag name with illegal characters falls back to the Go field name.", "quantifier": "every tag string and field name", "why_tests_cant": "All strings as tags.", "anchors": ["struct.go:isValidFieldName", "struct.go:scanFields", "tags.go:parseTag"]}
{"id": "C41", "title": "Tag parsing", "statement": "The name is the part of the tag before the first comma and the options are exactly the comma separated items after it; a tag of exactly \"-\" drops the field.", "quantifier": "every tag string", "why_tests_cant": "All strings.", "anchors": ["tags.go:parseTag", "tags.go:Contains", "struct.go:scanFields"]}
{"id": "C42", "title": "Unsupported types are reported, not mis-encoded", "statement": "Encoding a channel, function, complex number or unsafe pointer, or a map whose key type is not string, integer or TextMarshaler, anywhere it is reached returns UnsupportedTypeError naming that type.", "quantifier": "every type graph containing such a type, every value", "why_tests_cant": "Position in the type graph is unbounded.", "anchors": ["instruction.go:newUnsupportedTypeInstr", "instruction.go:newMapInstr"]}
{"id": "C43", "title": "Interfaces and pointers are transparent", "statement": "An interface holding a value encodes as the value would on its own, a nil interface as null; a pointer encodes as its target (same method-free type), a nil pointer as null.", "quantifier": "every dynamic type and value, any chain of pointers and interfaces", "why_tests_cant": "Unbounded nesting.", "anchors": ["encode.go:encodeInterface", "encode.go:encodePointer"]}
{"id": "C44", "title": "The context reaches every AppendJSONContext call", "statement": "Every AppendJSONContext method invoked while encoding a value, at any depth, receives the context of the last WithContext option of this very call, or context.TODO() if none was given.", "quantifier": "every value, every nesting, every option list", "why_tests_cant": "All nestings.", "anchors": ["encode.go:encodeAppendMarshalerCtx", "options.go:WithContext"]}
{"id": "C45", "title": "Nil receivers of custom methods encode as null", "statement": "A nil pointer or nil interface whose type has custom methods encodes as null without calling the method; as a map key a nil TextMarshaler pointer encodes as the empty string.", "quantifier": "every pointer or interface type with custom methods", "why_tests_cant": "All type and method set combinations.", "anchors": ["encode.go:encodeMarshaler", "instruction.go:wrapTextMarshalerNilCheck"]}
{"id": "C46", "title": "Results of custom methods are relayed faithfully", "statement": "AppendJSON results are taken as the new destination; MarshalJSON results are rejected with MarshalerError when not valid JSON (unless NoCompact) and compacted otherwise; MarshalText results become a JSON string with that text; a method's error is wrapped in MarshalerError naming the method and type, with nothing appended.", "quantifier": "every method result", "why_tests_cant": "All byte strings a method may return.", "anchors": ["encode.go:encodeAppendMarshaler", "encode.go:encodeJSONMarshaler", "encode.go:encodeTextMarshaler"]}
{"id": "C47", "title": "Relayed JSON is HTML-safe", "statement": "With HTML escaping on, the bytes appended for a MarshalJSON result or a json.RawMessage contain no raw <, > or &, whatever the method returned, well-formed or not.", "quantifier": "every byte string returned by a method or held in a raw message", "why_tests_cant": "One missed position in an unbounded input is an injection hole.", "anchors": ["encode.go:appendCompactJSON"]}
{"id": "C48", "title": "A JSON text denotes one tree", "statement": "The output of a successful call can be read in only one way: a byte string that is a well-formed JSON text denotes exactly one JSON tree (order and multiplicity of members included).", "quantifier": "every byte string", "why_tests_cant": "This is what makes the other statements about the denoted value meaningful; it ranges over all texts.", "anchors": ["json.go:Marshal"]}
{"id": "C49", "title": "Exact field selection rule", "statement": "Each struct type counts once, at its first embedding path (shortest, then first declared). A field of it is encoded iff its struct is not embedded a second time, one level up, by a struct standing at its own first path, and the field is less deep than (or as deep but tagged unlike) every other such field of its JSON name.", "quantifier": "every struct type graph, recursive embedding included", "why_tests_cant": "The result depends on the whole embedding graph and on all fields of equal names; test structs sample a handful of graphs.", "anchors": ["struct.go:structFields", "struct.go:scanFields", "struct.go:filterByVisibility", "struct.go:dominantField"]}
{"id": "C50", "title": "An option changes nothing but the values it is about", "statement": "Adding an option to a call leaves the result unchanged unless the value has, at some depth, a part of the sort the option is documented for: UnixTime and TimeLayout a time.Time, DurationFormat a time.Duration, UnsortedMap a map or sync.Map, RawByteSlice a byte slice, ByteArrayAsString a byte array, NilMapEmpty a nil map, NilSliceEmpty a nil slice, the string options a string, byte slice or byte array (NoHTMLEscaping also a struct, raw JSON or MarshalJSON), NoCompact raw JSON or MarshalJSON, NoNumberValidation a json.Number, WithContext an AppendJSONContext method, AllowList and DenyList a struct.", "quantifier": "every value, every option, any other options before and after", "why_tests_cant": "Non-interference of one option with all the values it is not about ranges over all values and all combinations of the other options.", "anchors": ["options.go:encOpts", "encode.go:encodeTime", "encode.go:encodeMap", "encode.go:encodeSlice"]}
{"id": "C51", "title": "Every failure has its cause in the value, and every cause is noticed", "statement": "A call returns an error only if some part of the value that is encoded is a reason for that very error: a float or duration that is not finite, a malformed json.Number, a time outside of the years 0 to 9999, an unsupported type, a method that returned that error or malformed JSON, a sync.Map with a nil or wrongly typed key. It panics only if a method it calls panics, on a nil value in a sync.Map or on a sorted key shorter than a pair of quotes. Conversely a call on a value without such parts succeeds, in particular every call on plain data, and one that succeeds has no such part.", "quantifier": "every type, value and option list; parts at any depth", "why_tests_cant": "Tests show that some faulty values give some errors; that there are no other failures, and that no fault is missed at any depth, ranges over all values.", "anchors": ["json.go:MarshalOpts", "encode.go:encodeFloat64", "encode.go:encodeNumber", "encode.go:encodeTime", "encode.go:encodeMarshaler", "encode.go:appendSyncMapKey", "instruction.go:newInstruction"]}
{"id": "C52", "title": "Output without markup and line separators", "statement": "With string and HTML escaping on, what a call appends has no <, > or & except inside texts that are copied as they are (results of AppendJSON, AppendJSONContext and MarshalText; with NoCompact raw messages and MarshalJSON results; with NoNumberValidation a json.Number; the text of a custom time layout). With UTF-8 coercion on as well it has no U+2028 and U+2029 either, and is valid UTF-8, if that holds for the copied texts and the relayed JSON is valid UTF-8. Keys of structs and maps and raw JSON are included.", "quantifier": "every type, value, depth and option list with these escapes on; whatever bytes strings, keys, raw messages and MarshalJSON results have", "why_tests_cant": "An injection hole is one missed position in an unbounded value; tests try a few strings.", "anchors": ["encode.go:appendEscapedBytes", "encode.go:appendCompactJSON", "struct.go:scanFields", "encode.go:encodeStruct", "encode.go:encodeMap"]}
{"id": "C53", "title": "The output is valid UTF-8", "statement": "With UTF-8 coercion and string escaping on, the text a call appends is valid UTF-8 whatever bytes the strings, byte slices and map keys of the value have, provided the texts that are not the encoder's own (results of methods, raw messages, unvalidated numbers, custom time layouts) are; compaction never splits a code point.", "quantifier": "every type, value, depth and option list with coercion on", "why_tests_cant": "All byte strings at all positions.", "anchors": ["encode.go:appendEscapedBytes", "encode.go:appendCompactJSON", "time.go:appendDuration", "struct.go:scanFields"]}
{"id": "C54", "title": "Errors say what went wrong", "statement": "The message of the error of a call is true of a part of the value that is encoded: it tells NaN, +Inf and -Inf apart, names the type, the number literal, the sync.Map key's type, or the method that failed with the type and the method's own message. Two errors with the same message are of the same sort and about the same. errors.Unwrap gives the very error a method of an encoded part returned, and nil only if no method is to blame. A rejected option is named. The known duration formats have distinct names, all others the name \"unknown\".", "quantifier": "every value, option list and call; all type names without colon, all messages of user errors", "why_tests_cant": "Tests compare some messages; that no two causes share a message, whatever the names and texts in it, and that the message is never about something else, is about all pairs of calls.", "anchors": ["json.go:Error", "json.go:Unwrap", "encode.go:encodeJSONMarshaler", "encode.go:appendFloat", "options.go:validate", "time.go:String"]}
{"id": "C55", "title": "Data can be recovered from its text", "statement": "Two values of one type that are encoded as the same text are equal, up to the order of map entries, the sign of a floating-point zero and the fields that tags and lists leave out of both; without maps, floats and left-out fields they are equal. This is for data: booleans, integers, floats, strings of valid UTF-8 (or without coercion), byte slices, durations encoded in full, times encoded with nanoseconds, pointers to what cannot be nil, slices, arrays, maps with string or integer keys, and structs of these, with nil slices and maps told from empty ones.", "quantifier": "every pair of values of a type, wherever they are in memory and in whatever order their maps are iterated; every depth; every option list that keeps the information", "why_tests_cant": "Injectivity is about all pairs of values; a test can only show pairs that differ.", "anchors": ["json.go:MarshalOpts", "encode.go:encodeString", "encode.go:appendEscapedBytes", "encode.go:encodeMap", "encode.go:encodeStruct", "time.go:appendRFC3339Time", "time.go:appendDuration"]}
{"id": "C56", "title": "The exact bytes of every value under every option", "statement": "What a call returns or appends is, byte for byte, the text given by a description of the format: the spelling of strings (short escapes, \\u00xx in lower case, HTML characters and separators only when asked for, replacement of malformed UTF-8 or not), the spelling of field names, the shortest float text with its exponent cleaned, RFC 3339 times, durations, base64, which commas and colons stand where, what compaction removes and escapes, which of the nil values are null and which are empty, the order of members, what the string option puts between quotes, and what is copied from methods, including the cases where this is not what it should be (the findings). No option has any other effect. A call that ends returns a text without error exactly if the description gives it.", "quantifier": "every type, value and option list; every depth, every method result, every destination", "why_tests_cant": "A description of the format is about all values and all combinations of options; golden files fix a few texts.", "anchors": ["json.go:MarshalOpts", "json.go:AppendOpts", "encode.go:appendEscapedBytes", "encode.go:appendCompactJSON", "encode.go:encodeStruct", "encode.go:encodeMap", "encode.go:encodeRawMessage", "encode.go:encodeByteSlice", "encode.go:appendFloat", "time.go:appendRFC3339Time"]}
{"id": "C57", "title": "By default the text is that of encoding/json", "statement": "With the default options a call returns, byte for byte, the text json.Marshal of the standard library writes for the same value, and an error where that writes nothing: which method is used and on what, what is addressable, escapes, floats, RFC 3339 times, numbers, raw messages, base64, null for nil, member names and their order, omitempty and the string option. The differences the README names (sync.Map, omitnil, the Append methods) are excepted.", "quantifier": "every type and value; every depth, every method result, every destination", "why_tests_cant": "Tests compare the two encoders on some values; that they agree on all values, and where exactly they do not, is about every type and value.", "anchors": ["json.go:Marshal", "json.go:Append", "encode.go:encodeMap", "encode.go:encodeStruct", "encode.go:encodeMarshaler", "struct.go:validChars", "instruction.go:newInstruction"]}
{"id": "C58", "title": "The first fault decides the error", "statement": "A value with several parts that cannot be encoded gets the error, or the panic, of the first of them, and no other: elements come in their order, struct fields in the order of their declaration through embedded structs, the key of a map entry before its value, the entries of a map in the order Go gives. What precedes it has no fault; what follows it is not looked at. If in no map more than one entry is at fault, the error does not depend on the iteration order, on where the data lies or on what was called before, and Append gives back the destination followed by what was written until then.", "quantifier": "every type, value, option list, iteration order and destination; every depth", "why_tests_cant": "Tests have values with one fault; which of several is reported is about all values with all combinations of faults.", "anchors": ["json.go:MarshalOpts", "json.go:AppendOpts", "encode.go:encodeArray", "encode.go:encodeSlice", "encode.go:encodeStruct", "encode.go:encodeMap", "encode.go:encodeSyncMap", "encode.go:encodeSortedMap"]}
{"id": "C59", "title": "The result depends on nothing that is not encoded", "statement": "Two calls with the same options on two values of one type that differ only in what is not encoded have the same result: the same bytes, the same error with the same bytes kept by Append, or both panic. Not encoded are fields that are no members of their struct (unexported, shadowed, tagged -), members hidden by AllowList or DenyList, and members left out of both values because they are empty, nil or behind a nil embedded pointer, at any depth. Nor does the result depend on the addresses of the data, on spare memory around it, or on what other calls do. So a denied field leaks neither through the text nor through an error.", "quantifier": "every pair of values of a type in any two memories, every depth, every option list, every destination and schedule", "why_tests_cant": "Noninterference is about all pairs of runs; a test compares the outputs of a few.", "anchors": ["json.go:MarshalOpts", "json.go:AppendOpts", "encode.go:encodeStruct", "options.go:isDeniedField", "struct.go:cachedFields"]}
{"id": "C60", "title": "What a call returned is encoded again as it is", "statement": "The text a call returned, put in a json.RawMessage or returned by the MarshalJSON method of another value, is written byte for byte by any other call, at the top or inside another value and with any options, NoCompact or not. So a type whose MarshalJSON encodes another value with the library is encoded as that value is. The first call is one that escapes strings, with HTML, and coerces UTF-8; without HTML escaping the second call may write an escape for a character.", "quantifier": "every pair of calls, every value, every option list of the second call, every position of the text, every destination", "why_tests_cant": "Idempotence is about every text the encoder can produce, from every value.", "anchors": ["json.go:MarshalOpts", "json.go:AppendOpts", "encode.go:encodeRawMessage", "encode.go:encodeJSONMarshaler", "encode.go:appendCompactJSON", "encode.go:appendEscapedBytes"]}
{"id": "C61", "title": "Which methods are called, how often and in which order", "statement": "A call of Marshal, Append or their variants calls exactly the methods that encode a part of the value: one call for each such part, on that part, with the context of the options, elements in their order, members in the order of their declaration, a key before its value, entries in the order Go gives. A method that returns an error or panics is the last one called; a call without error has called all of them, the same ones whatever they return, whatever the iteration order and wherever the data lies. Nil, rejected options, nil receivers, left out members and hidden members call nothing. So methods with a state of their own, such as counters or caches, see the same calls, and what is proved of methods that are functions holds for them.", "quantifier": "every type, value and option list; every way the methods behave, with any state; every depth and iteration order", "why_tests_cant": "A test observes the calls of one value with methods of one behaviour; the property is about all values and all behaviours of methods.", "anchors": ["json.go:MarshalOpts", "json.go:AppendOpts", "encode.go:encodeMarshaler", "encode.go:encodeAppendMarshalerCtx", "encode.go:encodeAppendMarshaler", "encode.go:encodeJSONMarshaler", "encode.go:encodeTextMarshaler", "encode.go:encodeStruct", "encode.go:encodeMap"]}
{"id": "C62", "title": "Append leaves the bytes it was given where they are", "statement": "From the moment Append or AppendOpts is called, while it runs, and when it has returned, failed or panicked, the array of the slice the caller gave holds the bytes of dst where they were; only what is beyond len(dst) may change, also when the result is in a bigger array. Nothing the library does later changes the array of a slice it returned, not even its spare capacity, so the caller may append to it.", "quantifier": "every destination, length and spare capacity, value, option list; every moment of every interleaving with other calls", "why_tests_cant": "A test looks at dst after a call has returned, and at a few growth patterns; the property is about every moment of every execution.", "anchors": ["json.go:Append", "json.go:AppendOpts", "json.go:MarshalOpts", "encode.go:encodeStruct", "encode.go:encodeSortedMap", "encode.go:encodeByteSlice", "buffer.go:cachedBuffer"]}
{"id": "C63", "title": "Calls that run at the same time do not race", "statement": "No two goroutines are ever about to touch the same byte array or the same pooled object, and none touches one that is in a pool. The instruction of a recursive type is set by one goroutine only, before it lets those waiting go on and while none of them can; once they may go on it does not change any more.", "quantifier": "every number of goroutines, every schedule, every behaviour of the pools, every history of earlier calls", "why_tests_cant": "The race detector sees only the schedules that happened; the property is about all of them.", "anchors": ["json.go:MarshalOpts", "json.go:AppendOpts", "instruction.go:newStructInstr", "buffer.go:cachedBuffer", "map.go:releaseMapElems", "encode.go:encodeSortedMap", "encode.go:encodeMap"]}
{"id": "C64", "title": "Methods may call the library", "statement": "A method called during a call may itself call Marshal, Append and their variants, for any value, to any depth, one after the other, in goroutines it waits for, and both at the same time. No such call deadlocks: while a call has not ended, some call that does not itself wait for one of its methods can go on; a goroutine others wait for runs no methods meanwhile. Each call, inner or outer, returns what it returns alone, also when methods have recovered from the panics of inner calls before, and under a fair scheduler all of them return.", "quantifier": "every tree of nested calls, every type and value (also types whose instructions are being generated by others), every schedule", "why_tests_cant": "A deadlock needs particular schedules of first uses of recursive types with methods that encode; tests see few of them.", "anchors": ["instruction.go:newStructInstr", "instruction.go:cachedInstr", "encode.go:encodeMarshaler", "encode.go:encodeJSONMarshaler", "encode.go:encodeTextMarshaler", "encode.go:encodeAppendMarshaler", "json.go:MarshalOpts", "json.go:AppendOpts"]}
{"id": "C65", "title": "The text is linear in the size of the value", "statement": "What a call writes is at most six bytes for each byte of the strings in the value, and for each value in it (elements, fields, keys, targets of pointers, the bytes of a []byte) a constant that depends only on the longest name of a member, the longest result of a method and the longest text of a float or of a time in a custom layout. A string of n bytes takes between n+2 and 6n+2 bytes, and 6n+2 is needed for some string of every length; n bytes take 4*ceil(n/3)+2 characters as base64. Fields of embedded structs are not written twice.", "quantifier": "every type, value and option list, every depth of nesting and embedding", "why_tests_cant": "Tests measure the texts of a few values; the bound is on all values, however their types embed and nest.", "anchors": ["json.go:MarshalOpts", "json.go:AppendOpts", "encode.go:appendEscapedBytes", "encode.go:encodeByteSlice", "encode.go:encodeStruct", "encode.go:encodeMap", "struct.go:cachedFields"]}
{"id": "C66", "title": "What Append returns beside an error", "statement": "If encoding fails with an error, Append and AppendOpts return the bytes they were given followed by what has been written until then, and that is: nothing of the part that fails (a quote if it is a number under the string option); before it the brackets that are open, the texts of the elements, members and entries that come first, and the names and keys that lead to the part, byte for byte as they stand in a successful call. A map that is sorted leaves only its brace, whichever entry fails. These bytes are determined by the value and the options, they are never a JSON text, and never less than dst. Marshal returns no bytes beside an error.", "quantifier": "every type, value and option list; every failing part at every depth; every iteration order", "why_tests_cant": "A test compares the bytes beside one error of one value; which bytes are left for a failure anywhere in any value is not settled by examples.", "anchors": ["json.go:AppendOpts", "json.go:Append", "json.go:MarshalOpts", "json.go:appendJSON", "encode.go:encodeStruct", "encode.go:encodeArray", "encode.go:encodeMap", "encode.go:encodeSortedMap", "encode.go:encodeUnsortedMap", "encode.go:encodeSyncMap", "instruction.go:wrapInlineInstr"]}
{"id": "C67", "title": "Methods may change the data while it is encoded", "statement": "If a method changes the data that is being encoded (the elements of the slice, the entries of the map or of the sync.Map, the target of the pointer or the content of the interface that comes next, also so that the data has cycles), then whatever it changes the encoder makes no wrong access: it reads each variable as what it is, follows no nil pointer and no pointer beyond the end of a slice. Variables are left in place.", "quantifier": "every type and option list, every way methods may change memory so that variables hold data of their types (which Go guarantees), every data with and without cycles, every number of steps", "why_tests_cant": "Tests encode data that stands still; a crash needs a method that changes just the data the encoder has half read.", "anchors": ["encode.go:encodeMap", "encode.go:encodeSlice", "encode.go:encodeStruct", "encode.go:encodeArray", "encode.go:encodePointer", "encode.go:encodeInterface", "encode.go:encodeSyncMap", "encode.go:encodeMarshaler", "map.go:mapiterinit"]}
{"id": "C68", "title": "What methods change elsewhere does not matter", "statement": "If the methods leave the encoded value and the maps in it as they are, and answer by the value of their receiver, then the result of a call is the one it has when nothing changes in memory at all, whatever else the methods change.", "quantifier": "every type, value, option list and iteration order; every state the methods keep and every memory they write outside the value", "why_tests_cant": "A test has one method with one kind of state; the property is about everything methods may do.", "anchors": ["json.go:MarshalOpts", "json.go:AppendOpts", "encode.go:encodeMarshaler", "encode.go:encodeMap", "encode.go:encodeStruct"]}
{"id": "C69", "title": "The text is JSON, also when methods change the data", "statement": "Whatever methods change in the data that is being encoded, a call that succeeds returns exactly one well-formed JSON text without whitespace (behind dst, for Append): no separator is missing or doubled, no bracket is left open, every entry has a key. This holds for maps that grow or shrink between two entries, slices and pointers that are replaced, interfaces whose content changes.", "quantifier": "every type and option list with string escaping, every way methods may change memory, provided that methods return JSON, the variables of natively handled types hold at every moment what they should, and the findings 1, 2, 9 and 22 do not apply", "why_tests_cant": "There is no value to compare the text to, and the moments at which data may change are many; the property is about all of them.", "anchors": ["json.go:MarshalOpts", "json.go:AppendOpts", "encode.go:encodeMap", "encode.go:encodeSortedMap", "encode.go:encodeUnsortedMap", "encode.go:encodeSyncMap", "encode.go:encodeArray", "encode.go:encodeStruct", "encode.go:encodeMarshaler"]}
{"id": "C70", "title": "Types are prepared once", "statement": "However many goroutines encode at the same time, the fields of a struct type are laid out at most once for values that can be addressed and at most once for values that cannot, never once per call. As long as calls do not overlap, the type of every value encoded stays prepared: a later call for it prepares nothing. While every call is for a type that is prepared, no cache changes at all. (Calls for new types that overlap may undo each other's entries in the cache of instructions: finding 25. The calls still return the right text, C31, and the structs are not laid out again.)", "quantifier": "every number of goroutines, every schedule, every history of calls, every set of types", "why_tests_cant": "How often a type is prepared does not show in results; a type that is prepared again and again, or a cache that grows with every call, needs many goroutines and rare schedules to be seen.", "anchors": ["instruction.go:cachedInstr", "instruction.go:loadInstr", "instruction.go:storeInstr", "instruction.go:newStructInstr", "instruction.go:newStructFieldsInstr", "struct.go:cachedFields", "types.go:cachedEmptyFuncOf"]}
{"id": "C71", "title": "Where a promoted field is read", "statement": "For every struct type it is determined, step by step, at which place in memory the encoder looks for a promoted field: each step of its way is the step of the last struct, among those queued at that depth, whose route shares the backing array; routes share an array exactly if their paths agree up to the step at which the array was allocated. The field is read at its own place if and only if these steps are its own. With the growth of slices in the Go runtime every field below at most three embedded structs is read at its own place, whatever else the type embeds.", "quantifier": "every type graph (recursive and repeated embedding included), every growth of slices, every field", "why_tests_cant": "Whether two routes share an array depends on depths, positions and on all other embedded structs of the type; tests use a few small types, in which arrays are never shared.", "anchors": ["struct.go:scanFields", "struct.go:structFields", "struct.go:field", "encode.go:encodeStruct"]}
{"id": "C72", "title": "Only the value matters, and the types it is made of", "statement": "The result of a call is determined by the value, the options and the types the value is made of (their components and what its interfaces hold). Other types of the program, their tags, methods and layout, what else is in memory, interfaces of other types included, and where the value is, make no difference. In particular a type of the program that the encoder misreads does no harm to values that are not made of it.", "quantifier": "every pair of programs that have these types in common, every memory that holds the value, every option list; every number and form of other types", "why_tests_cant": "A test runs in one program, with its types; that no other type or data can matter is about all programs.", "anchors": ["json.go:MarshalOpts", "json.go:AppendOpts", "json.go:appendJSON", "instruction.go:newInstruction", "instruction.go:newStructFieldsInstr", "struct.go:cachedFields", "encode.go:encodeInterface"]}
{"id": "C73", "title": "Malformed output has a cause that is known", "statement": "If a call succeeds and the text it returns (behind dst, for Append) is not JSON, then some part of the value that was encoded has one of the following: a method or json.RawMessage that gives something else than JSON and is not checked, a MarshalText method or time layout whose text needs escapes, NoNumberValidation with a json.Number that is not JSON, NoStringEscaping with a text that needs escapes, a map key that is not written as a string (findings 9, 21 and 22), or a first member dropped for being null (finding 1). There is no other way to malformed output. The same list, with texts that have whitespace, for output that is not compact. Conversely the text of a part with one of the reasons that are not about members is malformed.", "quantifier": "every type, value and option list (NoStringEscaping, NoCompact, NoNumberValidation and all formats included), every answer of methods", "why_tests_cant": "A test shows that one value gives JSON; that there are no more causes of malformed output than those listed is about all types, values and options, and most of all about their combinations.", "anchors": ["json.go:MarshalOpts", "json.go:AppendOpts", "encode.go:encodeMarshaler", "encode.go:encodeMap", "encode.go:encodeSyncMap", "encode.go:encodeStruct", "encode.go:encodeString", "encode.go:encodeByteSlice", "encode.go:encodeNumber", "encode.go:encodeRawMessage", "encode.go:encodeTime", "encode.go:encodeDuration", "encode.go:encodeFloat32"]}
{"id": "C74", "title": "AllowList and DenyList only take members away", "statement": "The text that a call returns with AllowList and DenyList is the text it returns without them, less the members of structs whose names the lists hide, at any depth: elements of lists, entries of maps (with their keys, also when these are named like a hidden field), the other members, their order, their names and all texts are the same. A call that succeeds without the lists succeeds with them, and an error of a call with them is about a part of the value that has the same fault without them.", "quantifier": "every type, value and option list with sorted maps whose keys are written differently, every pair of lists, every depth; methods that answer by their receiver", "why_tests_cant": "It relates two calls for every value and every pair of lists; a test compares a few texts to literals.", "anchors": ["options.go:AllowList", "options.go:DenyList", "options.go:isDeniedField", "encode.go:encodeStruct", "json.go:MarshalOpts", "json.go:AppendOpts"]}
{"id": "C75", "title": "Two option lists have the same result on contents they treat alike", "statement": "This is finer than C50, which goes by the sorts of values and adds one option: here the contents decide, any number of options may differ, and only parts that are encoded count. If two option lists differ only in options that are about nothing in the value, then the two calls have the same result: the same text, the same error or a panic. (Of several entries of one map that are at fault any may be met first, in two calls with the same options too; then both calls fail, each with the error of a part that has it under both lists.) What an option is about: UnixTime and TimeLayout are about times (the layout only without UnixTime), DurationFormat about durations, UnsortedMap about maps with two entries or more, NilMapEmpty and NilSliceEmpty about nil maps and nil slices that are not of bytes, RawByteSlice about slices of bytes that are not nil, ByteArrayAsString about arrays of bytes, NoNumberValidation about a json.Number that is no number, NoCompact about what json.RawMessage and MarshalJSON give, NoStringEscaping about strings and string keys with a character that is not plain printable ASCII, NoHTMLEscaping about strings, keys and names with <, > or & (names also if not ASCII) and about JSON that is compacted, NoUTF8Coercion about strings with bytes above ASCII, WithContext about values with AppendJSONContext, AllowList and DenyList about structs with a field that one list hides and the other does not.", "quantifier": "every type, value (at any depth) and pair of option lists, with methods that answer by their receiver and maps whose entries are told apart by their texts", "why_tests_cant": "There are eleven flags, three formats, two lists and a context; that no combination of them has an effect on values it is not about is a statement about all pairs of option lists and all values.", "anchors": ["options.go:encOpts", "json.go:MarshalOpts", "json.go:AppendOpts", "encode.go:encodeString", "encode.go:encodeMap", "encode.go:encodeSyncMap", "encode.go:encodeStruct", "encode.go:encodeArray", "encode.go:encodeSlice", "encode.go:encodeByteSlice", "encode.go:encodeTime", "encode.go:encodeDuration", "encode.go:encodeNumber", "encode.go:encodeRawMessage", "encode.go:encodeJSONMarshaler"]}
{"id": "C76", "title": "The text of dynamic data is put together from the texts of calls for its parts", "statement": "For a slice, array, map with string keys, or struct of interfaces (such as []interface{} and map[string]interface{}), the text a call returns is made of the texts that calls of their own return for the values in the interfaces, with the same options: between brackets and commas in their order, or behind their keys or names in the order of keys or fields, and null for a nil interface. If the call succeeds, so does a call for each value in it, with just the bytes that stand in the whole; if the calls for the values succeed, so does the call for the whole, with just the bytes put together from theirs. If the call fails or panics, so do the calls for one of the values, with the same error (unless a map in that value has two entries at fault, of which either may be met first). So a value may be encoded in pieces, anywhere and at any time.", "quantifier": "every such type, every value in it (of any type and depth), every option list without UnsortedMap, every memory that holds the parts, methods that answer by their receiver, keys written differently", "why_tests_cant": "It relates a call to the calls for all parts, for all types of parts; a test compares one text to a literal and would pass if, say, a value were encoded differently behind an interface in a list than at the top.", "anchors": ["json.go:MarshalOpts", "json.go:appendJSON", "encode.go:encodeInterface", "encode.go:encodeSlice", "encode.go:encodeArray", "encode.go:encodeMap", "encode.go:encodeStruct", "instruction.go:cachedInstr"]}
{"id": "C77", "title": "Pointers to natively handled types are encoded as what they point to", "statement": "The types that the encoder handles natively (time.Time, time.Duration, json.Number, json.RawMessage, sync.Map) are encoded the same behind a pointer, under every option: a call on the pointer and a call on the value return the same bytes or the same error, and a nil pointer is null. This holds for pointers without methods: *time.Duration, *json.Number, *sync.Map. It is false for *time.Time and *json.RawMessage (finding 27), whose MarshalJSON is called: UnixTime and TimeLayout are of no effect on pointers to times (the pointer is a string where the time is a number), and a RawMessage that is not JSON is written but is an error behind a pointer. Without these options a pointer to a time is encoded as the time.", "quantifier": "every natively handled type and value, every option list, every memory", "why_tests_cant": "It relates two calls for all values and option lists, errors included; tests of pointers to times that use the default options pass.", "anchors": ["instruction.go:newInstruction", "instruction.go:newGoTypeInstr", "instruction.go:newMarshalerTypeInstr", "instruction.go:newPtrInstr", "encode.go:encodePointer", "encode.go:encodeTime", "encode.go:encodeRawMessage", "encode.go:encodeJSONMarshaler", "options.go:UnixTime", "options.go:TimeLayout"]}
{"id": "C78", "title": "Options about spelling do not change the data", "statement": "NoHTMLEscaping, NoCompact, UnsortedMap and NoNumberValidation are about how data is spelled or what is checked, not about the data: two calls on the same value whose options are alike but for these, and that succeed, return JSON texts of the same data, that is, of trees that differ in the order of the members of objects at most (strings compared after their escapes are resolved, numbers as written). This holds for values whose text is JSON under the first options (C73 tells which are not), provided that every json.RawMessage in them is JSON, keys of maps that are not strings are written by the rule for integers or by MarshalText, and no field with the omitnil option has MarshalJSON. It is false without these: a field with omitnil whose MarshalJSON writes null and a newline is dropped or not, depending on NoCompact. Adding any of the four to a call that succeeds on such a value does not make it fail either.", "quantifier": "every type, value and depth, every pair of option lists that differ in any of the four options, Marshal and Append", "why_tests_cant": "It relates two texts by what they mean, for all values and sixteen combinations of options against sixteen; tests compare the bytes under one option at a time.", "anchors": ["options.go:NoHTMLEscaping", "options.go:NoCompact", "options.go:UnsortedMap", "options.go:NoNumberValidation", "encode.go:encodeString", "encode.go:appendEscapedBytes", "encode.go:appendCompactJSON", "encode.go:encodeMap", "encode.go:encodeSyncMap", "encode.go:encodeStruct", "encode.go:encodeRawMessage", "encode.go:encodeJSONMarshaler", "encode.go:encodeNumber"]}
{"id": "C79", "title": "Few options can be the reason for a failure", "statement": "A call that succeeds still succeeds when options are added to it, whatever they are and however many, as long as UnixTime, WithContext, DurationFormat with minutes or seconds, invalid arguments (an empty layout, an unknown format) and lists that show more members are not among them. More generally, call settings no stricter than others if they check no numbers and no JSON of methods that the others do not check, sort no maps and take apart no arrays of bytes that the others do not, write times as numbers and durations as fractions only if the others do, show no member that the others hide and have the same context; all other options may differ at will. Then a call that succeeds with the others succeeds with them, in Marshal and in Append with any destination, and an error with them is about a part of the value that has the same error with the others. UnixTime is an exception for a reason: adding it to a call that succeeds can make it panic (finding 9).", "quantifier": "every type, finite value and depth, every pair of option lists where one is no stricter, every list of added options, methods that answer by their receiver", "why_tests_cant": "It is about all combinations of options and all values; that an option has no failure of its own is the absence of a behaviour, which tests of its effect do not show.", "anchors": ["options.go:encOpts", "options.go:validate", "json.go:MarshalOpts", "json.go:AppendOpts", "encode.go:encodeMap", "encode.go:encodeSyncMap", "encode.go:encodeNumber", "encode.go:encodeTime", "encode.go:encodeDuration", "encode.go:encodeArray", "encode.go:encodeStruct", "encode.go:encodeJSONMarshaler"]}
{"id": "C80", "title": "Options about form change the data only where they are about it", "statement": "NilMapEmpty, NilSliceEmpty, RawByteSlice, ByteArrayAsString, UnixTime, TimeLayout and DurationFormat are about the form of some values, and of no others. Two calls on the same value whose options differ in these, and in those about spelling (C78), in any way, and that succeed, return JSON texts of trees with the same members, elements and leaves, but that null stands for an empty object or array if NilMapEmpty or NilSliceEmpty differ, the base64 of bytes for the bytes if RawByteSlice differs, an array with an element for each byte for the bytes if ByteArrayAsString differs, and one form of a time or duration for another form of the same time or duration if these options differ. Where the options about form agree, the data is the same. This holds for the values of C78 whose text is JSON under either option list. It is false if keys of maps are times or durations, whose form is that of the options also as a key (the members of the object are then named differently), so that the options about times may only differ if there are no such keys.", "quantifier": "every type, value and depth, every pair of option lists that differ in options about form and spelling only, Marshal and Append", "why_tests_cant": "It relates two texts by what they mean, for all values and all pairs of settings; tests compare a value of one type under one option.", "anchors": ["options.go:NilMapEmpty", "options.go:NilSliceEmpty", "options.go:RawByteSlice", "options.go:ByteArrayAsString", "options.go:UnixTime", "options.go:TimeLayout", "options.go:DurationFormat", "encode.go:encodeMap", "encode.go:encodeSlice", "encode.go:encodeByteSlice", "encode.go:encodeArray", "encode.go:encodeTime", "encode.go:encodeDuration"]}
{"id": "C81", "title": "The names of types do not matter", "statement": "Types that have the same form are encoded the same, whatever they and the types they are made of are called: if two types have the same kind with components that correspond in turn, struct types declare fields with the same names, tags and embedding in the same order (embedded structs whose fields are promoted may have other names), and corresponding types have the same methods, which answer alike, then calls for values that differ in nothing but their types both succeed or both fail, under every option list, and if they succeed and maps are sorted they return the same bytes, in Marshal and in Append. So a type may be renamed, defined anew from another or replaced by a type literal, or moved to another package, without a change of its JSON. The types that the encoder handles natively are known as such and not by their form, and it matters if a pointer type has a name (the string option is of no effect on such fields, and structs embedded through them are not promoted), so these have to correspond.", "quantifier": "every relation of types of the same form, recursive types included, every pair of values that differ in the types of interfaces only, every option list, every memory that holds the values", "why_tests_cant": "It relates two calls for all pairs of types; tests have a type or two for each kind, and would pass if the encoder, or its cache of types, told types apart by name.", "anchors": ["json.go:MarshalOpts", "json.go:AppendOpts", "instruction.go:cachedInstr", "instruction.go:newInstruction", "instruction.go:newStructInstr", "struct.go:cachedFields", "struct.go:scanFields", "encode.go:encodeMap", "encode.go:encodeStruct", "encode.go:encodeInterface"]}
{"id": "C82", "title": "A struct is encoded as the map with its members", "statement": "A struct and a map[string]interface{} with an entry for each member of the struct that is shown (its JSON name, and its value in an interface) are the same object: a call for the one succeeds if and only if a call for the other does, under every option list, and the texts consist of the same members, byte for byte, in the order of fields in the one and in the order of keys in the other. So a struct type may stand for dynamic data and the other way round, and embedding, tags and lists of fields have no effect but on which members there are. This holds for structs whose members have no string option that applies, no omitnil option together with MarshalJSON, and no interfaces with custom methods among them, for names without quotes, backslashes and control characters, unless NoStringEscaping is set without NoHTMLEscaping (names of fields are still escaped then, and keys are not).", "quantifier": "every struct type with such members, every value, every map with the entries in any order, every option list", "why_tests_cant": "It relates two code paths, of structs and of maps, for all types of members and all options; tests check each on its own.", "anchors": ["json.go:MarshalOpts", "encode.go:encodeStruct", "encode.go:encodeMap", "encode.go:encodeSortedMap", "encode.go:encodeUnsortedMap", "encode.go:encodeInterface", "instruction.go:newStructFieldsInstr", "instruction.go:newMapInstr"]}
{"id": "C83", "title": "A container of interfaces is encoded as the container of what they hold", "statement": "[]T and []interface{}, [n]T and [n]interface{}, map[K]T and map[K]interface{} are encoded the same if the interfaces hold the elements of the other, or, where these are slices, arrays and maps in turn, their like with interfaces, at any depth: calls for the one and the other both succeed or both fail, under every option list, and if they succeed and maps are sorted they return the same bytes, in Marshal and in Append; nil containers are encoded the same too. Pointers on the way may be left out, nil ones replaced by nil interfaces. Structs on the way may be replaced by others that show the same members, with values in interfaces (C84). So typed data is encoded as generic data is. T is any type whose elements are not bytes (these are written as one string), interfaces included. For slices and pointers this holds if T has no methods on pointers in the values that are not methods on T: the elements of a slice and what pointers point to are addressable and the values in interfaces are not, so that such a method is called for the one and not for the other. Arrays and maps have no such condition.", "quantifier": "every type of elements, all elements, lengths and depths, every option list, every memory that holds the values", "why_tests_cant": "It relates two paths, the instruction compiled into the container and the one looked up for the value in the interface, for all types; tests check each on its own.", "anchors": ["json.go:MarshalOpts", "json.go:AppendOpts", "encode.go:encodeSlice", "encode.go:encodeArray", "encode.go:encodeMap", "encode.go:encodeInterface", "instruction.go:newSliceInstr", "instruction.go:newArrayInstr", "instruction.go:newMapInstr", "instruction.go:cachedInstr"]}
{"id": "C84", "title": "Nothing but the members shown is encoded of a struct", "statement": "Two structs that show the same members, that is, fields of the same JSON names, types, string and omitnil options and values in the same order, are encoded the same, however they are declared: with the fields embedded in other structs or pointers to them or declared directly, with other fields that are unexported, tagged with a dash, hidden by embedding rules, left out by omitempty or omitnil, behind a nil embedded pointer or hidden by AllowList and DenyList, or without. Calls for the one and the other both succeed or both fail, under every option list under which the members shown are the same, and if they succeed and maps are sorted they return the same bytes, in Marshal and in Append. Fields of the one may also be of interface types that hold the values of the other, or their generic forms (C83), if the string option does not apply to them and they are not dropped for what MarshalJSON returns. So fields may be moved into an embedded struct and out of it, and fields that are not shown may be added, without a change of the JSON.", "quantifier": "every pair of struct types without methods of their own, every pair of values that show the same members, every option list", "why_tests_cant": "It relates two calls for all pairs of struct types, embedded to any depth; tests compare the text of one declaration with a literal.", "anchors": ["json.go:MarshalOpts", "json.go:AppendOpts", "encode.go:encodeStruct", "instruction.go:newStructInstr", "instruction.go:newStructFieldsInstr", "struct.go:cachedFields", "struct.go:scanFields", "struct.go:filterByVisibility"]}
{"id": "C85", "title": "A value stands for the same data as its generic form", "statement": "What a call returns without error for a value is a text of a JSON tree that is also one for the generic form of the value: with a map[string]interface{} of the members shown for each struct, a []interface{} or an array of interfaces for each slice and array, a map of interfaces for each map, and what a pointer points to, or a nil interface, for each pointer, at any depth and held as they are where one likes. And what a call returns for the generic form is a text of a tree that differs only in the order of the members of objects from one for the value. The string option must not apply to the members, their names must be valid UTF-8 or coercion off, and types replaced must have no methods of their own.", "quantifier": "every type and value, every generic form of it, every depth, every option list, every memory that holds the value", "why_tests_cant": "It relates the trees of values of different types for all types and depths; tests compare the text for a few struct types with literals.", "anchors": ["json.go:MarshalOpts", "json.go:AppendOpts", "encode.go:encodeStruct", "encode.go:encodeSlice", "encode.go:encodeArray", "encode.go:encodeMap", "encode.go:encodePointer", "encode.go:encodeInterface"]}
