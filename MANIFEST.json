{
 "claims": [
  {
   "property": "C01",
   "status": "proved",
   "theorems": [
    "Srl.Props.srl_roundtrip"
   ],
   "note": "INT64_MIN, which the code negates, is excluded by the quantifier."
  },
  {
   "property": "C02",
   "status": "proved",
   "theorems": [
    "Srl.Props.msgpack_roundtrip"
   ],
   "note": ""
  },
  {
   "property": "C03",
   "status": "partial",
   "theorems": [
    "Srl.Props.json_roundtrip_partial",
    "Srl.Props.json_name_quote",
    "Srl.Props.json_name_backslash",
    "Srl.Props.json_double_wrong",
    "Srl.Props.json_save_undefined",
    "Srl.Props.json_doubles_partial",
    "Srl.Props.json_double_concrete"
   ],
   "note": "Violated by the code: names are not escaped; large integral doubles are read back wrongly (witness with the library's own formatting). Proved for names without quotes and backslashes, integers but -2^63, and all doubles but NaN and integral ones from 2^63 up to 2^80, given a strtod that rounds correctly."
  },
  {
   "property": "C04",
   "status": "partial",
   "theorems": [
    "Srl.Props.restore_store_srl",
    "Srl.Props.restore_store_msgpack",
    "Srl.Props.restore_store_json_partial",
    "Srl.Props.restore_store_json_fp_partial",
    "Srl.Props.json_negative_zero",
    "Srl.Props.json_double_member"
   ],
   "note": "All types of booleans, integers, floats, doubles, strings, binaries, vectors, fixed arrays, tuples, pairs, sets, maps (also multi), tables by name, classes and pointers, any nesting, restored into any object. JSON: member names without quotation mark and backslash (written unescaped), no INT64_MIN (undefined on writing in Srl and JSON). Floating point members come back bit for bit in Srl and MessagePack; in JSON, with the modelled formatting and any correct strtod, all but negative zero, NaN and integral numbers from 2^63 to below 2^80 (violations with witnesses). Floats that are signalling NaNs become quiet, long double is outside of the typed model."
  },
  {
   "property": "C05",
   "status": "proved",
   "theorems": [
    "Srl.Props.field_order",
    "Srl.Props.field_order_tables",
    "Srl.Props.stored_order"
   ],
   "note": "Every permutation of the fields of objects at every level, any formats of the two documents, any type of the typed model; with tables, whose entries are fields too, failing documents may fail in different ways; the documents may miss fields and have further values. Nesting within the limit. Scopes the type does not have are C06."
  },
  {
   "property": "C06",
   "status": "partial",
   "theorems": [
    "Srl.Props.unknown_fields_loaded",
    "Srl.Props.unknown_values_skipped",
    "Srl.Props.unknown_values_stored",
    "Srl.Props.unknown_fields_skipped_partial",
    "Srl.Props.restore_wrong_object",
    "Srl.Props.restore_throws_unknown_scope",
    "Srl.Props.scope_behind_ends_object"
   ],
   "note": "Proved for loaded trees, and for further values when restoring while reading. Violated for further scopes behind the last field of a nested object (witnesses); other scopes are proved to be skipped."
  },
  {
   "property": "C07",
   "status": "partial",
   "theorems": [
    "Srl.Props.restore_is_load_partial",
    "Srl.Props.restore_wrong_object",
    "Srl.Props.restore_throws_unknown_scope",
    "Srl.Props.restore_accepts_malformed"
   ],
   "note": "Violated: a scope behind the last field of a nested object ends that object early (witness with a silently wrong object and with an exception); text behind the last field is not read. Otherwise proved for every format and document."
  },
  {
   "property": "C08",
   "status": "proved",
   "theorems": [
    "Srl.Props.nesting_limit",
    "Srl.Props.nesting_bounded",
    "Srl.Props.srl_nesting",
    "Srl.Props.msgpack_nesting",
    "Srl.Props.json_nesting"
   ],
   "note": "For every token reader; the three formats concretely."
  },
  {
   "property": "C09",
   "status": "proved",
   "theorems": [
    "Srl.Props.srl_load_terminates",
    "Srl.Props.srl_load_budget",
    "Srl.Props.msgpack_load_terminates",
    "Srl.Props.msgpack_load_budget",
    "Srl.Props.json_load_terminates"
   ],
   "note": ""
  },
  {
   "property": "C10",
   "status": "partial",
   "theorems": [
    "Srl.Props.msgpack_memory_safe",
    "Srl.Props.msgpack_inside",
    "Srl.Props.srl_memory_safe_partial",
    "Srl.Props.srl_accepted_inside_partial",
    "Srl.Props.srl_overread",
    "Srl.Props.srl_shift_undefined",
    "Srl.Props.srl_pointer_overflow",
    "Srl.Props.srl_negate_undefined",
    "Srl.Props.json_memory_safe_partial",
    "Srl.Props.json_accepted_inside_partial",
    "Srl.Props.json_overread",
    "Srl.Props.json_escape_overflow"
   ],
   "note": "Proved for MessagePack. Violated by the code for the Srl format and for JSON (witnesses); what holds is stated in the _partial theorems."
  },
  {
   "property": "C11",
   "status": "partial",
   "theorems": [
    "Srl.Props.srl_truncated",
    "Srl.Props.srl_truncated_general",
    "Srl.Props.msgpack_truncated",
    "Srl.Props.msgpack_truncated_general",
    "Srl.Props.json_truncated_partial",
    "Srl.Props.json_truncated_general",
    "Srl.Props.json_truncated_accepted"
   ],
   "note": "Violated by the code for JSON: names containing quotes are written as they are, so that a prefix may be a document. Proved for the binary formats, for JSON documents that can be loaded back (see C03), and for every proper prefix of an accepted text, as far as that was read. For the Srl format and JSON the byte behind the source must be readable (see C10)."
  },
  {
   "property": "C12",
   "status": "proved",
   "theorems": [
    "Srl.Props.srl_roundtrip",
    "Srl.Props.srl_trailing",
    "Srl.Props.msgpack_roundtrip",
    "Srl.Props.msgpack_trailing",
    "Srl.Props.json_roundtrip_partial",
    "Srl.Props.json_trailing"
   ],
   "note": ""
  },
  {
   "property": "C13",
   "status": "proved",
   "theorems": [
    "Srl.Props.int_unwrap_exact",
    "Srl.Props.bool_unwrap_exact",
    "Srl.Props.text_unwrap_exact",
    "Srl.Props.other_unwrap"
   ],
   "note": ""
  },
  {
   "property": "C14",
   "status": "partial",
   "theorems": [
    "Srl.Props.fp_unwrap_partial",
    "Srl.Props.fp_unwrap_undefined_iff",
    "Srl.Props.fp_unwrap_partial'",
    "Srl.Props.fp_unwrap_small",
    "Srl.Props.fp_unwrap_undefined"
   ],
   "note": "Violated by the code: NaN for every target, 2^63 for int64_t and 2^64 for uint64_t reach an undefined conversion. Proved for all other numbers."
  },
  {
   "property": "C15",
   "status": "proved",
   "theorems": [
    "Srl.Props.double_storage_exact",
    "Srl.Props.widen_exact",
    "Srl.Props.float_stored_compactly"
   ],
   "note": ""
  },
  {
   "property": "C16",
   "status": "proved",
   "theorems": [
    "Srl.Props.int_to_text",
    "Srl.Props.int_text_roundtrip",
    "Srl.Props.int_min_text_undefined"
   ],
   "note": ""
  },
  {
   "property": "C17",
   "status": "partial",
   "theorems": [
    "Srl.Props.int_text_exact_partial",
    "Srl.Props.int_text_blank",
    "Srl.Props.int_text_shape",
    "Srl.Props.int_text_wrong"
   ],
   "note": "Violated by the code for digit strings denoting 2^64 or more; proved below that, and modulo 2^64 in general."
  },
  {
   "property": "C18",
   "status": "proved",
   "theorems": [
    "Srl.Props.base64_encode_spec",
    "Srl.Props.base64_roundtrip",
    "Srl.Props.base64_decoded_size",
    "Srl.Props.base64_restore_binary"
   ],
   "note": "Encoder equals the RFC 4648 specification; decoding inverts it."
  },
  {
   "property": "C19",
   "status": "partial",
   "theorems": [
    "Srl.Props.base64_rejects_partial",
    "Srl.Props.base64_accepts_misplaced_padding",
    "Srl.Props.base64_non_ascii_undefined",
    "Srl.Props.base64_restore_accepts_short",
    "Srl.Props.base64_undefined_iff"
   ],
   "note": "The property is violated by the code: misplaced padding is accepted, non-ASCII characters index the table out of bounds, short texts restore as empty. What holds is base64_rejects_partial; base64_undefined_iff says exactly for which texts restoring is undefined."
  },
  {
   "property": "C20",
   "status": "proved",
   "theorems": [
    "Srl.Props.hex_roundtrip",
    "Srl.Props.hex_encode_spec",
    "Srl.Props.hex_decode_ok_iff",
    "Srl.Props.hex_decode_err_iff"
   ],
   "note": ""
  },
  {
   "property": "C21",
   "status": "proved",
   "theorems": [
    "Srl.Props.vlq_encode_spec",
    "Srl.Props.vlq_roundtrip",
    "Srl.Props.vlq_minimal"
   ],
   "note": ""
  },
  {
   "property": "C22",
   "status": "proved",
   "theorems": [
    "Srl.Props.hash_is_fnv1a"
   ],
   "note": ""
  },
  {
   "property": "C23",
   "status": "proved",
   "theorems": [
    "Srl.Props.htable_map"
   ],
   "note": ""
  },
  {
   "property": "C24",
   "status": "proved",
   "theorems": [
    "Srl.Props.htable_map"
   ],
   "note": ""
  },
  {
   "property": "C25",
   "status": "proved",
   "theorems": [
    "Srl.Props.heap_disjoint",
    "Srl.Props.heap_get",
    "Srl.Props.heap_put",
    "Srl.Props.heap_clear_zero",
    "Srl.Props.heap_overaligned"
   ],
   "note": "For sizes below 4 GiB and alignments up to 16, as the quantifier says; heap_overaligned shows that the bound on the alignment is needed."
  },
  {
   "property": "C26",
   "status": "partial",
   "theorems": [
    "Srl.Props.out_memory_partial",
    "Srl.Props.out_memory_wraps"
   ],
   "note": "Proved for results shorter than 4 GiB - 16. Violated by the code beyond 4 GiB (witness out_memory_wraps)."
  },
  {
   "property": "C27",
   "status": "partial",
   "theorems": [
    "Srl.Props.out_stream_partial",
    "Srl.Props.out_stream_memory",
    "Srl.Props.out_stream_wrong"
   ],
   "note": "Violated by the code for reservations (used by MessagePack) on a stream that already holds data; proved for empty streams and for output without reservations."
  },
  {
   "property": "C28",
   "status": "partial",
   "theorems": [
    "Srl.Props.stream_operations",
    "Srl.Props.msgpack_stream_load",
    "Srl.Props.msgpack_stream_restore",
    "Srl.Props.msgpack_stream_shared",
    "Srl.Props.srl_stream_accepts_partial",
    "Srl.Props.srl_stream_restores_partial",
    "Srl.Props.srl_stream_shared_partial",
    "Srl.Props.srl_stream_rejects_partial",
    "Srl.Props.srl_stream_short_partial",
    "Srl.Props.srl_stream_roundtrip_partial",
    "Srl.Props.stream_long_name",
    "Srl.Props.stream_long_name_wrong",
    "Srl.Props.stream_announced_size",
    "Srl.Props.srl_stream_announced_size",
    "Srl.Props.json_stream_accepts_partial",
    "Srl.Props.json_stream_restores_partial",
    "Srl.Props.json_stream_shared_partial",
    "Srl.Props.json_stream_load_partial",
    "Srl.Props.json_stream_roundtrip_partial",
    "Srl.Props.json_doubles_stream_partial",
    "Srl.Props.literalsShort_dense",
    "Srl.Props.literalsShort_small",
    "Srl.Props.literalsEnd_small",
    "Srl.Props.json_stream_long_literal"
   ],
   "note": "Proved for all programs of block reads and skips, and for all MessagePack documents (load, restore, shared pointers) given memory for the sizes announced. Violated for Srl names of 1024 bytes and more (over-read or a silently wrong value, witnesses) and for announced sizes beyond the memory (exception of another kind, witnesses); proved otherwise. JSON: what memory accepts (load, restore, shared pointers) is accepted with the same result, unless a literal has 1024 bytes or more (over-read, witness); rejections agree unless an unterminated literal of more than 33 bytes ends the source; saved documents are always read back."
  },
  {
   "property": "C29",
   "status": "proved",
   "theorems": [
    "Srl.Props.json_escape_invertible"
   ],
   "note": ""
  },
  {
   "property": "C30",
   "status": "partial",
   "theorems": [
    "Srl.Props.json_unicode_partial",
    "Srl.Props.json_unicode_wrong"
   ],
   "note": "Violated by the code: the two bytes of the number are swapped."
  },
  {
   "property": "C31",
   "status": "partial",
   "theorems": [
    "Srl.Props.json_brackets_partial",
    "Srl.Props.json_brackets_unmatched"
   ],
   "note": "Violated by the code: the kind of a closing bracket is not compared with the open scope."
  },
  {
   "property": "C32",
   "status": "partial",
   "theorems": [
    "Srl.Props.srl_reuse",
    "Srl.Props.srl_table_exact",
    "Srl.Props.msgpack_reuse",
    "Srl.Props.json_reuse_partial",
    "Srl.Props.json_reuse_differs"
   ],
   "note": "Proved for the binary formats. Violated by the code for JSON where a write outside of a buffer depends on its size; proved for all other texts."
  },
  {
   "property": "C33",
   "status": "proved",
   "theorems": [
    "Srl.Props.node_lookup",
    "Srl.Props.node_history_unique",
    "Srl.Props.node_history_total",
    "Srl.Props.node_edit_others",
    "Srl.Props.node_edit_lookup",
    "Srl.Props.node_get"
   ],
   "note": "Refinement of the list operations to histories of fields. Names in UTF-8; an address is never used again."
  },
  {
   "property": "C34",
   "status": "proved",
   "theorems": [
    "Srl.Props.all_nodes_once",
    "Srl.Props.find_nodes_exact",
    "Srl.Props.all_values_once",
    "Srl.Props.find_values_exact"
   ],
   "note": "Callbacks do not change the tree while it is enumerated."
  },
  {
   "property": "C35",
   "status": "partial",
   "theorems": [
    "Srl.Props.node_position",
    "Srl.Props.node_get_position_undefined",
    "Srl.Props.node_get_position_partial"
   ],
   "note": "Violated by get(size_t) and try_get(size_t), which dereference a null pointer; value(size_t) and node(size_t) throw."
  },
  {
   "property": "C36",
   "status": "partial",
   "theorems": [
    "Srl.Props.shared_srl_partial",
    "Srl.Props.shared_msgpack_partial",
    "Srl.Props.shared_json_partial",
    "Srl.Props.shared_restored",
    "Srl.Props.shared_store_ends",
    "Srl.Props.shared_cycle_throws",
    "Srl.Props.shared_declaration_order",
    "Srl.Props.null_shared_throws"
   ],
   "note": "Proved for every class table, every object and every acyclic graph behind its shared pointers, any hash function, all three formats, restored while reading or from a loaded tree: the result is a copy up to an injective renaming of addresses with nothing besides. Missing: null shared pointers, which throw (witness). Storing is proved to end for cyclic graphs too; restoring them throws (witness)."
  },
  {
   "property": "C37",
   "status": "partial",
   "theorems": [
    "Srl.Props.store_any_time_partial",
    "Srl.Props.pack_any_time",
    "Srl.Props.store_after_clear",
    "Srl.Props.store_is_write",
    "Srl.Props.rootUnnamed_srl",
    "Srl.Props.rootUnnamed_msgpack",
    "Srl.Props.rootUnnamed_json",
    "Srl.Props.shared_store_twice"
   ],
   "note": "Proved after any sequence of calls, failed ones included, for objects without shared pointers, for pack, and after clear. Violated for store of objects with shared pointers: addresses of earlier stores are remembered and their content left out (witness)."
  },
  {
   "property": "C38",
   "status": "partial",
   "theorems": [
    "Srl.Props.failed_store_partial",
    "Srl.Props.failed_pack_partial",
    "Srl.Props.load_is_load",
    "Srl.Props.insert_after_failed_store",
    "Srl.Props.load_after_failed_store",
    "Srl.Props.shared_after_failed_store"
   ],
   "note": "Violated: the flag 'parsing' stays set, so values inserted next are lost or go to a dead parser, and nested scopes loaded next are lost (witnesses); the table of shared objects keeps entries. Proved for all histories before and after if one stores next and shared pointers are not involved."
  },
  {
   "property": "C39",
   "status": "partial",
   "theorems": [
    "Srl.Props.msgpack_output_partial",
    "Srl.Props.msgpack_output_wrong"
   ],
   "note": "Violated by the code: lengths of strings above 254 and binaries above 255 bytes are written in native byte order. Proved for shorter ones."
  },
  {
   "property": "C40",
   "status": "partial",
   "theorems": [
    "Srl.Props.msgpack_input_partial",
    "Srl.Props.msgpack_input_wrong",
    "Srl.Props.msgpack_reserved_accepted",
    "Srl.Props.msgpack_ext_rejected"
   ],
   "note": "Violated by the code: lengths in str 16/32 and bin 16/32 are read in native byte order; the reserved byte C1 is accepted. Proved for all other formats."
  },
  {
   "property": "C41",
   "status": "proved",
   "theorems": [
    "Srl.Props.registrations",
    "Srl.Props.poly_pointer_partial"
   ],
   "note": "All sequences of registrations and uses, any hash function. That a factory makes objects of a class derived from the one asked for is not checked by the code and not expressed."
  },
  {
   "property": "C42",
   "status": "partial",
   "theorems": [
    "Srl.Props.array_length_loaded",
    "Srl.Props.array_too_short_partial",
    "Srl.Props.array_scopes_too_short_partial",
    "Srl.Props.restore_array_too_long"
   ],
   "note": "Proved for loaded trees at every level. Restoring while reading accepts longer arrays (witness) and is proved to reject shorter arrays of values and of scopes."
  },
  {
   "property": "C43",
   "status": "proved",
   "theorems": [
    "Srl.Props.srl_stable",
    "Srl.Props.msgpack_stable"
   ],
   "note": ""
  },
  {
   "property": "C44",
   "status": "proved",
   "theorems": [
    "Srl.Props.srl_names_once"
   ],
   "note": ""
  },
  {
   "property": "C45",
   "status": "partial",
   "theorems": [
    "Srl.Props.json_layout_partial",
    "Srl.Props.json_layout_matters"
   ],
   "note": "Violated by the code for names containing quotes."
  },
  {
   "property": "C46",
   "status": "partial",
   "theorems": [
    "Srl.Props.optional_members_partial",
    "Srl.Props.optional_absent_partial",
    "Srl.Props.optional_others_partial",
    "Srl.Props.optional_twice"
   ],
   "note": "Proved member by member for documents that fit the type; violated when the name of an optional scope occurs first with a value."
  },
  {
   "property": "C47",
   "status": "partial",
   "theorems": [
    "Srl.Props.null_raw_pointers_partial",
    "Srl.Props.null_unique_to_zero",
    "Srl.Props.null_scope_pointer_throws",
    "Srl.Props.null_vector_shrinks",
    "Srl.Props.null_shared_throws",
    "Srl.Props.null_shared_vector_shrinks"
   ],
   "note": "Violated: null unique_ptr to a value comes back as a pointer to 0, null pointers to classes throw, containers of pointers to classes lose nulls, and the same for shared_ptr. Proved for raw pointers to values."
  },
  {
   "property": "C48",
   "status": "proved",
   "theorems": [
    "Srl.Props.convert_formats"
   ],
   "note": ""
  },
  {
   "property": "C49",
   "status": "proved",
   "theorems": [
    "Srl.Props.int_format_fits"
   ],
   "note": ""
  },
  {
   "property": "C50",
   "status": "partial",
   "theorems": [
    "Srl.Props.array_same_encoding",
    "Srl.Props.array_char",
    "Srl.Props.array_converted",
    "Srl.Props.array_converted_partial",
    "Srl.Props.array_invalid",
    "Srl.Props.array_round_trip",
    "Srl.Props.array_truncated",
    "Srl.Props.array_overrun"
   ],
   "note": "Proved without conversion: every string into arrays of char. Violated with conversion: the terminator is written at an index computed from the unconverted size; texts are cut off or memory behind the array is written (witnesses). What happens is proved for all texts and sizes."
  },
  {
   "property": "C51",
   "status": "proved",
   "theorems": [
    "Srl.Props.htable_map"
   ],
   "note": ""
  },
  {
   "property": "C52",
   "status": "proved",
   "theorems": [
    "Srl.Props.charset_converts",
    "Srl.Props.charset_rejects",
    "Srl.Props.string_restored",
    "Srl.Props.strings_written",
    "Srl.Props.wide_round_trip",
    "Srl.Props.wide_invalid",
    "Srl.Props.narrow_exact",
    "Srl.Props.char_restored",
    "Srl.Props.json_escape_conversion"
   ],
   "note": "All texts and pairs of encodings, against the UTF-8 encoder of Lean's library; conversion itself is iconv, whose behaviour is part of the trusted base. Formats keep the UTF-8 bytes by C01 to C03."
  },
  {
   "property": "C53",
   "status": "partial",
   "theorems": [
    "Srl.Props.array_stored",
    "Srl.Props.array_round_trip",
    "Srl.Props.array_unterminated"
   ],
   "note": "Proved for arrays with a terminator. Without one the last char is lost, and wide arrays are read past their end (proved for all contents)."
  },
  {
   "property": "C54",
   "status": "partial",
   "theorems": [
    "Srl.Props.raw_pointer_usable_partial",
    "Srl.Props.poly_pointer_partial",
    "Srl.Props.raw_pointer_dangles"
   ],
   "note": "Violated: the old object is deleted before anything that can throw, and the pointer keeps its address (witness). Proved for pointers that were null and restores that succeed."
  },
  {
   "property": "C55",
   "status": "partial",
   "theorems": [
    "Srl.Props.shared_type_confusion",
    "Srl.Props.msgpack_shared_safe_partial",
    "Srl.Props.srl_shared_safe_partial",
    "Srl.Props.json_shared_safe_partial"
   ],
   "note": "Violated: a key used for pointers of two classes makes the second an object of the first class (witness). Proved for all documents without poisonous values (C56) if all shared pointers lead to one class: restoring ends and is defined, or throws."
  },
  {
   "property": "C56",
   "status": "partial",
   "theorems": [
    "Srl.Props.msgpack_restore_safe_partial",
    "Srl.Props.srl_restore_safe_partial",
    "Srl.Props.json_restore_safe_partial",
    "Srl.Props.conversion_defined_iff",
    "Srl.Props.restore_poison_undefined",
    "Srl.Props.poison_examples"
   ],
   "note": "Proved for all bytes, types and previous contents, restored while reading or from a loaded tree, if no value is NaN, 2^63, 2^64, -2^63 or, where binaries are restored, a text with bytes above 127 that the base64 decoder reaches (exactly the values some type cannot be restored from; witnesses), for Srl and JSON also without what makes the reader itself undefined (C10). Shared pointers: see C55. Exhausting the stack by nesting: see C77."
  },
  {
   "property": "C57",
   "status": "partial",
   "theorems": [
    "Srl.Props.successful_store_partial",
    "Srl.Props.save_invisible",
    "Srl.Props.load_any_time",
    "Srl.Props.load_is_load",
    "Srl.Props.shared_store_twice"
   ],
   "note": "Proved for all sequences of calls in which no store failed before (otherwise see C38), all formats. Violated for objects with shared pointers stored again (witness)."
  },
  {
   "property": "C58",
   "status": "partial",
   "theorems": [
    "Srl.Props.srl_names_partial",
    "Srl.Props.srl_names_kept_partial",
    "Srl.Props.srl_names_once_partial",
    "Srl.Props.srl_names_overwritten_partial",
    "Srl.Props.srl_wide_names_partial",
    "Srl.Props.srl_names_dangling",
    "Srl.Props.srl_wide_names_dangling"
   ],
   "note": "Violated by the Srl writer, which keeps pointers to names: a name passed twice from temporary memory, or UTF-16 names of different lengths, make it read memory that was given back (witnesses). Proved for names that stay, names whose hashes occur once, and names that are overwritten but readable. The other formats keep no names."
  },
  {
   "property": "C59",
   "status": "proved",
   "theorems": [
    "Srl.Props.double_text_fits",
    "Srl.Props.double_text_roundtrip",
    "Srl.Props.double_text_value",
    "Srl.Props.double_text_injective",
    "Srl.Props.double_text_special"
   ],
   "note": "All 2^64 doubles, against a separate reader of decimal texts with rational values. That the digits are the fewest possible is not claimed (Grisu2 does not guarantee it). strtod itself belongs to the C library."
  },
  {
   "property": "C60",
   "status": "partial",
   "theorems": [
    "Srl.Props.unwrap_double_nearest",
    "Srl.Props.unwrap_double_special",
    "Srl.Props.unwrap_float_nearest",
    "Srl.Props.unwrap_float_special",
    "Srl.Props.ofDouble_infinite",
    "Srl.Props.unwrap_zero_sign",
    "Srl.Props.unwrap_double_infinity",
    "Srl.Props.unwrap_fp_defined"
   ],
   "note": "Proved for all stored numbers against a specification of nearest, ties to even, in exact integers; out of range throws. Violated: infinities held as doubles (read from MessagePack) throw when unwrapped as float (witness)."
  },
  {
   "property": "C61",
   "status": "proved",
   "theorems": [
    "Srl.Props.restored_proper",
    "Srl.Props.default_proper"
   ],
   "note": "Any reader (so any format and any damage to the document), any type of the typed model, restored while reading or from a loaded tree. Unordered containers and tables are represented in ascending order. Not modelled: unordered multi containers, long double."
  },
  {
   "property": "C62",
   "status": "proved",
   "theorems": [
    "Srl.Props.container_restored",
    "Srl.Props.container_order",
    "Srl.Props.container_permuted",
    "Srl.Props.map_example",
    "Srl.Props.set_example",
    "Srl.Props.multi_example",
    "Srl.Props.table_example"
   ],
   "note": "Any reader; keys are integers, booleans, strings, and sequences, pairs and tuples of keys, with the order of std::less; at any level of nesting. Covers std::multiset and std::multimap (all elements stay, those with equal keys in the order of the document) and HTable by name. Unordered multi containers: C64."
  },
  {
   "property": "C63",
   "status": "partial",
   "theorems": [
    "Srl.Props.vecwrap_roundtrip",
    "Srl.Props.vecwrap_restored",
    "Srl.Props.vecwrap_fits",
    "Srl.Props.vecwrap_text_partial",
    "Srl.Props.vecwrap_refuses",
    "Srl.Props.vecwrap_writes_outside"
   ],
   "note": "Proved: the round trip for all vectors, as binary data and as base64 text. Violated for sizes that are not a multiple of the size of the elements: bytes are written behind the vector (witness, and exactly for which lengths, starting from an empty vector). Proved for all other sizes, any previous contents and any growth of capacity."
  },
  {
   "property": "C64",
   "status": "partial",
   "theorems": [
    "Srl.Props.restore_any_order_srl",
    "Srl.Props.restore_any_order_msgpack",
    "Srl.Props.restore_any_order_json_partial",
    "Srl.Props.enumerates_perm",
    "Srl.Props.restore_same_elements_srl",
    "Srl.Props.restore_same_elements_msgpack",
    "Srl.Props.restore_same_elements_json_partial",
    "Srl.Props.enumerates_elements",
    "Srl.Props.bag_example"
   ],
   "note": "Proved for Srl and MessagePack; JSON under the limits of C04 (names with quotes, INT64_MIN, negative zeros). Containers that allow repeated keys, unordered ones included, have the same elements afterwards, each as often as before, in the order in which they were written as far as keys are equal."
  },
  {
   "property": "C65",
   "status": "partial",
   "theorems": [
    "Srl.Props.unpack_srl",
    "Srl.Props.unpack_msgpack",
    "Srl.Props.unpack_json_partial"
   ],
   "note": "Proved for Srl and MessagePack; JSON under the limits of C04. Items nested up to 128 levels (those kept aside are limited, C08). For nested classes with fewer members see C06."
  },
  {
   "property": "C66",
   "status": "partial",
   "theorems": [
    "Srl.Props.weak_srl_partial",
    "Srl.Props.weak_msgpack_partial",
    "Srl.Props.weak_json_partial",
    "Srl.Props.weak_kept",
    "Srl.Props.weak_parent_throws",
    "Srl.Props.weak_expired_throws"
   ],
   "note": "Proved for every object and every graph without null pointers and cycles, weak pointers included. The code violates the rest: weak pointers back to their owners are stored but restoring throws, and so do expired ones. What keeps restored objects alive is modelled as ownership by shared pointers, not by counts."
  },
  {
   "property": "C67",
   "status": "partial",
   "theorems": [
    "Srl.Props.srl_inserted_is_stored_partial",
    "Srl.Props.msgpack_inserted_is_stored_partial",
    "Srl.Props.json_inserted_is_stored_partial",
    "Srl.Props.rejected_is_rejected",
    "Srl.Props.list_while_storing"
   ],
   "note": "Proved for all insertions but initializer lists, for documents the format can carry. The code violates the rest: the elements of a list inserted while storing end up in the enclosing scope."
  },
  {
   "property": "C68",
   "status": "partial",
   "theorems": [
    "Srl.Props.trees_own_their_content_partial",
    "Srl.Props.trees_own_their_content_after_partial",
    "Srl.Props.assigned_root_dangles",
    "Srl.Props.moved_to_itself",
    "Srl.Props.loaded_from_itself",
    "Srl.Props.written_without_name"
   ],
   "note": "Proved for all programs without four kinds of calls. The code violates the property for each of them: assigning to a root shares memory of the other tree, moving a tree to itself leaves it without root, loading a tree from its own bytes clears them first, writing a node made with Node(tree) dereferences a null pointer."
  },
  {
   "property": "C69",
   "status": "partial",
   "theorems": [
    "Srl.Props.moved_tables_partial",
    "Srl.Props.moved_from_table_ends",
    "Srl.Props.moved_from_table_is_cleared",
    "Srl.Props.moved_from_table_is_iterated",
    "Srl.Props.moved_into_table_is_cleared"
   ],
   "note": "Proved for all programs in which a table moved from is not iterated over before it is filled again and neither cleared nor destroyed, and a table moved into is not cleared. The code violates the property for each of these: moving takes the pointers but not the heap their memory is in, and leaves the pointer to the array behind."
  },
  {
   "property": "C70",
   "status": "partial",
   "theorems": [
    "Srl.Props.loaded_unions_srl",
    "Srl.Props.loaded_unions_msgpack",
    "Srl.Props.loaded_unions_json_partial",
    "Srl.Props.unpack_unions_srl_partial",
    "Srl.Props.unpack_unions_msgpack_partial",
    "Srl.Props.unpack_unions_json_partial",
    "Srl.Props.union_attempts",
    "Srl.Props.union_mismatch",
    "Srl.Props.unions_in_order_throw",
    "Srl.Props.object_behind_union_throws"
   ],
   "note": "Proved in full for trees that were loaded whole (in JSON for what JSON carries) and roots that are scopes. Unpacking is decided in full: nothing is wrong if what is asked for after a union was stored ahead of something asked for before, otherwise it throws. The code violates the property there: a union makes it skip the rest of the scope."
  },
  {
   "property": "C71",
   "status": "partial",
   "theorems": [
    "Srl.Props.failing_streams_partial",
    "Srl.Props.working_streams_partial",
    "Srl.Props.failed_stream_holds_beginning",
    "Srl.Props.failed_output_returns",
    "Srl.Props.output_to_pipe_is_lost"
   ],
   "note": "Proved for streams that throw when they fail, and for others that their state tells whether the document was delivered. The code violates the property: it does not look at the state of the stream, so calls return although the document is lost; filling a reservation moves in the stream, which makes pipes fail."
  },
  {
   "property": "C72",
   "status": "partial",
   "theorems": [
    "Srl.Props.restored_text_partial",
    "Srl.Props.restored_text_in_order",
    "Srl.Props.restored_long_text",
    "Srl.Props.restored_text_missing",
    "Srl.Props.text_of_loaded_tree",
    "Srl.Props.short_text_is_gone",
    "Srl.Props.unescaped_text_is_overwritten",
    "Srl.Props.unescaped_text_is_gone"
   ],
   "note": "Proved for all texts but two kinds, for which the code violates the property: texts of one to eight bytes that were passed when a later value was restored dangle, and texts that the parser unescapes point into the parser. Covers documents whose texts are values of the root."
  },
  {
   "property": "C73",
   "status": "partial",
   "theorems": [
    "Srl.Props.one_tree_srl_partial",
    "Srl.Props.one_tree_msgpack_partial",
    "Srl.Props.one_tree_json_partial",
    "Srl.Props.asked_again",
    "Srl.Props.parser_is_gone",
    "Srl.Props.unpacked_root_is_rest"
   ],
   "note": "Proved for all programs in which items are not asked for twice after unpacking, and parser and source are kept while one goes on unpacking; JSON under the limits of C04, unions as in C70. The code violates the rest: unpacking takes items out of the tree, and the tree keeps a pointer to the parser, which is a temporary object by default. Trees on which storing has thrown: see C38."
  },
  {
   "property": "C74",
   "status": "partial",
   "theorems": [
    "Srl.Props.loaded_object_partial",
    "Srl.Props.loaded_object_srl_partial",
    "Srl.Props.loaded_object_msgpack_partial",
    "Srl.Props.loaded_object_json_partial",
    "Srl.Props.loaded_is_stored_srl_partial",
    "Srl.Props.loaded_is_stored_msgpack_partial",
    "Srl.Props.loaded_is_stored_json_partial",
    "Srl.Props.stored_acts",
    "Srl.Props.loaded_vector_is_object",
    "Srl.Props.names_of_loaded_object_lost",
    "Srl.Props.loaded_pair_is_rejected",
    "Srl.Props.load_object_after_failure"
   ],
   "note": "Proved for trees whose root suits the type (an object for anything, an array for what is stored as an array and for values) and that were not left by a call that threw while storing; JSON under the limits of C04. The code violates the rest: the type of the root is never that of the object, so vectors are saved as objects with empty names and values under the name '' instead of 'value' (loaded_vector_is_object); a tree that held an array keeps that root and saves classes without names (names_of_loaded_object_lost), pairs cannot even be taken out (loaded_pair_is_rejected); after a failed store the object is written to the old parser (load_object_after_failure)."
  },
  {
   "property": "C75",
   "status": "proved",
   "theorems": [
    "Srl.Props.heaps_live",
    "Srl.Props.heaps_disjoint",
    "Srl.Props.heaps_step"
   ],
   "note": "Heaps are not copied: the copy constructor, which the class has by default and the library does not use, gives everything back twice (copied_heap)."
  },
  {
   "property": "C76",
   "status": "partial",
   "theorems": [
    "Srl.Props.heap_refused_partial",
    "Srl.Props.heap_cleared_after_refusal",
    "Srl.Props.heap_after_refusal"
   ],
   "note": "Proved: blocks obtained before keep their contents, they can be returned, the heap can be cleared, moved and destroyed (heaps_live), and after clear it can be used again. The code violates the rest: the remainder of the current segment is both on the free list and in use, and blocks obtained later overlap (heap_after_refusal)."
  },
  {
   "property": "C77",
   "status": "partial",
   "theorems": [
    "Srl.Props.loaded_depth",
    "Srl.Props.restore_depth_partial",
    "Srl.Props.restore_depth_srl",
    "Srl.Props.restore_depth_msgpack",
    "Srl.Props.restore_depth_json"
   ],
   "note": "Proved: restoring from a loaded tree nests at most 129 calls for every document and type; restoring while reading nests no deeper than the types if no class leads back to itself. Violated otherwise: for every depth below 2^60 and each format there is a document, stored by the library itself, that needs deeper nesting to be restored while reading, whereas loading it throws."
  },
  {
   "property": "C78",
   "status": "partial",
   "theorems": [
    "Srl.Props.json_output_partial",
    "Srl.Props.json_output_control",
    "Srl.Props.json_output_control_name",
    "Srl.Props.json_output_name",
    "Srl.Props.json_output_inf",
    "Srl.Props.json_output_undefined"
   ],
   "note": "Proved for all trees whose strings have no control characters but those with short escapes, whose names need no escapes and whose numbers are finite and not 2^63 or -2^63, with the library's own formatting of doubles and both layouts, against the grammar of RFC 8259. Violated otherwise: control characters are written raw, names are not escaped, infinities are no JSON, and +-2^63 is undefined."
  },
  {
   "property": "C79",
   "status": "partial",
   "theorems": [
    "Srl.Props.json_input_partial",
    "Srl.Props.json_input_deep",
    "Srl.Props.readable_is_json",
    "Srl.Props.json_input_scalar",
    "Srl.Props.json_input_large",
    "Srl.Props.json_input_unit",
    "Srl.Props.json_input_stream_partial",
    "Srl.Props.json_stream_blank_lines"
   ],
   "note": "From streams too, if numbers have at most 800 characters and at most 200 tabs and line ends follow each other (1023 line ends behind a number make it read in front of the buffer). Proved for all texts of the grammar whose root is an array or object, whose integers are below 2^64, other numbers not rounded to infinity, and in which no character is written by its number; strtod is assumed to round correctly (and such functions exist). Nesting over 128 scopes throws. Violated otherwise: scalar roots throw, larger integers and characters written by number are read as others."
  },
  {
   "property": "C80",
   "status": "partial",
   "theorems": [
    "Srl.Props.json_object_partial",
    "Srl.Props.described_once",
    "Srl.Props.described_typed",
    "Srl.Props.json_object_unknown",
    "Srl.Props.json_object_integer",
    "Srl.Props.json_object_stream_partial"
   ],
   "note": "Proved for all types of the typed model that are scopes, against a relation between JSON values and objects: loading and then restoring gives an object the text describes, which is unique without floating point; restoring while reading gives the same if the text has no arrays and objects that the type has no place for. Violated otherwise: while reading, elements behind an unknown array are lost; integers from 2^53 written with a fraction are restored as others. Limits of C79 apply. From streams too, see C79."
  },
  {
   "property": "C81",
   "status": "partial",
   "theorems": [
    "Srl.Props.version_srl_partial",
    "Srl.Props.version_msgpack_partial",
    "Srl.Props.version_msgpack_stream_partial",
    "Srl.Props.version_json_partial",
    "Srl.Props.version_later",
    "Srl.Props.version_once",
    "Srl.Props.version_same",
    "Srl.Props.version_lost",
    "Srl.Props.version_example",
    "Srl.Props.version_numbers"
   ],
   "note": "Proved for all types of the typed model against a relation between objects of two types: loaded first always; while reading if all lost members are single values. Violated otherwise in all formats: a sequence of objects that have lost a list loses its elements behind the first one, without an error (version_lost). Documents nested at most 128 deep; what the formats cannot keep is excluded as in C04. Integers may have become wider ones or floating point numbers that have them all, floats doubles (version_numbers)."
  },
  {
   "property": "C82",
   "status": "partial",
   "theorems": [
    "Srl.Props.msgpack_object_partial",
    "Srl.Props.msgpack_described_once",
    "Srl.Props.msgpack_object_stream_partial",
    "Srl.Props.msgpack_object_unknown",
    "Srl.Props.msgpack_object_wide",
    "Srl.Props.msgpack_object_example"
   ],
   "note": "Proved for all types of the typed model that are scopes, against a relation between documents and objects and the specification of the format: every encoding without str 16/32 and bin 16/32 is restored as the object described, loaded first; while reading if the document has no arrays and maps that the type has no place for. Violated otherwise: while reading, elements behind an unknown array are lost; lengths in two or four bytes are read in native byte order. Documents nested at most 128 deep."
  },
  {
   "property": "C83",
   "status": "partial",
   "theorems": [
    "Srl.Props.comments_skipped_partial",
    "Srl.Props.comments_object_partial",
    "Srl.Props.comments_stream_partial",
    "Srl.Props.readable_commented",
    "Srl.Props.json_is_commented",
    "Srl.Props.comment_behind_number",
    "Srl.Props.comment_twice",
    "Srl.Props.comment_slash"
   ],
   "note": "Proved against a grammar of JSON with comments, for trees, objects and streams, if comments behind numbers, truth values and null have a blank in front of them, do not begin with /*/ and do not follow */ at once. Violated otherwise: a comment at once behind a number is an error; of two comments in a row the second reaches to the end of the line, so that values are lost; a comment that begins with /*/ ends there, so that what it contains is read. Further limits as in C79 and C80."
  },
  {
   "property": "C84",
   "status": "partial",
   "theorems": [
    "Srl.Props.msgpack_tokens_memory",
    "Srl.Props.json_tokens_memory",
    "Srl.Props.srl_tokens_memory",
    "Srl.Props.msgpack_tree_memory",
    "Srl.Props.json_tree_memory",
    "Srl.Props.srl_tree_memory",
    "Srl.Props.memory_names",
    "Srl.Props.msgpack_object_memory",
    "Srl.Props.json_object_memory",
    "Srl.Props.srl_object_memory_partial",
    "Srl.Props.tables_memory",
    "Srl.Props.srl_tables_large",
    "Srl.Props.stream_announced_size",
    "Srl.Props.srl_stream_announced_size"
   ],
   "note": "Proved for all bytes in memory: trees (with names counted once for Srl), all tokens read before an error, the buffers of the JSON parser, and objects of all types (Srl: without tables). Violated: tables restored from Srl copy names that the document refers to by index, so that memory grows with the square of the size; from streams a few bytes that announce a size make the library ask for that much memory. Counted are items, elements and bytes of strings and names, not the bytes of the C++ objects for them."
  },
  {
   "property": "C85",
   "status": "partial",
   "theorems": [
    "Srl.Props.json_accepts_only_partial",
    "Srl.Props.json_accepts_all",
    "Srl.Props.json_words",
    "Srl.Props.json_word_rejected",
    "Srl.Props.json_garbage",
    "Srl.Props.json_no_value",
    "Srl.Props.json_no_comma"
   ],
   "note": "Violated by the code: json_no_value refutes the full statement OnlyJson, json_garbage gives an infinite family. Proved instead: a grammar for what is accepted, stated apart from the model, with the trees it describes; everything that is loaded is derived by it, and everything it derives is loaded (unless the escapes of C32 occur). What words are taken for is left to strtod where they are neither literals nor integers."
  },
  {
   "property": "C86",
   "status": "partial",
   "theorems": [
    "Srl.Props.msgpack_accepts_only_partial",
    "Srl.Props.msgpack_accepts_all",
    "Srl.Props.msgpack_even",
    "Srl.Props.msgpack_any_key",
    "Srl.Props.msgpack_not_only",
    "Srl.Props.msgpack_number_key"
   ],
   "note": "Violated by the code: msgpack_not_only refutes the full statement OnlyMsgPack, msgpack_any_key gives an infinite family. Proved instead: a grammar for what is accepted, stated apart from the model, with the trees it describes; everything that is loaded is derived by it (msgpack_accepts_only_partial), everything it derives up to the nesting allowed is loaded (msgpack_accepts_all), and what it derives without its oddities is MessagePack (msgpack_even)."
  },
  {
   "property": "C87",
   "status": "partial",
   "theorems": [
    "Srl.Props.msgpack_stream_ahead_partial",
    "Srl.Props.srl_stream_ahead_partial",
    "Srl.Props.json_stream_ahead_partial",
    "Srl.Props.msgpack_stream_lost",
    "Srl.Props.srl_stream_lost",
    "Srl.Props.json_stream_lost",
    "Srl.Props.msgpack_one_by_one",
    "Srl.Props.srl_one_by_one",
    "Srl.Props.json_one_by_one",
    "Srl.Props.json_stream_spaced_partial",
    "Srl.Props.json_stream_texts_partial",
    "Srl.Props.msgpack_next_value",
    "Srl.Props.srl_next_value",
    "Srl.Props.json_next_value",
    "Srl.Props.namesShort_small"
   ],
   "note": "Violated by the code in all formats: *_one_by_one refute the full statement OneByOne, *_stream_lost show that in streams of up to 1024 bytes everything behind the first document is lost, whatever it is. Proved instead: the first document is loaded whatever follows it, and at most 1024 bytes of that are lost (*_stream_ahead_partial); any number of JSON documents are loaded one after the other if 1024 blanks follow each (json_stream_spaced_partial, json_stream_texts_partial)."
  },
  {
   "property": "C88",
   "status": "partial",
   "theorems": [
    "Srl.Props.loaded_msgpack",
    "Srl.Props.loaded_srl",
    "Srl.Props.loaded_srl_partial",
    "Srl.Props.loaded_json_partial",
    "Srl.Props.loaded_srl_undefined",
    "Srl.Props.loaded_json_name"
   ],
   "note": "Full statement Saveable. Proved without exceptions for saving as MessagePack whatever was loaded, and for saving in the Srl format what was loaded from the Srl format or JSON. Violated by the code otherwise: a MessagePack document with -2^63 cannot be saved in the Srl format (loaded_srl_undefined: undefined behaviour), a JSON text with an escaped quote in a name is saved as a text that cannot be loaded (loaded_json_name). With these values and names excluded it is proved (loaded_srl_partial, loaded_json_partial)."
  },
  {
   "property": "C89",
   "status": "partial",
   "theorems": [
    "Srl.Props.srl_accepts_only_partial",
    "Srl.Props.srl_accepts_all",
    "Srl.Props.srl_even",
    "Srl.Props.srl_saved_even",
    "Srl.Props.srl_stray_bits",
    "Srl.Props.srl_not_only",
    "Srl.Props.srl_number_wraps"
   ],
   "note": "Full statement OnlySaved; violated by the code (srl_not_only). What is accepted is given exactly by a grammar (srl_accepts_only_partial, srl_accepts_all); the part of it without oddities is exactly what the library saves (srl_even, srl_saved_even). Oddities: bits of flags without meaning (srl_stray_bits), numbers in too many bytes or cut to 64 bits (srl_number_wraps), names that are repeated or empty, doubles that are floats, negated numbers that are not negative, scopes before values."
  },
  {
   "property": "C90",
   "status": "partial",
   "theorems": [
    "Srl.Props.msgpack_time_partial",
    "Srl.Props.json_time_partial",
    "Srl.Props.srl_time_partial",
    "Srl.Props.spread_length",
    "Srl.Props.spread_one",
    "Srl.Props.spread_two",
    "Srl.Props.time_quadratic",
    "Srl.Props.same_hash",
    "Srl.Props.json_time",
    "Srl.Props.json_not_proportional",
    "Srl.Props.srl_time",
    "Srl.Props.srl_again_time",
    "Srl.Props.msgpack_time"
   ],
   "note": "Full statement Proportional; violated by the code (json_not_proportional). What holds: 256 + 64 L for each byte if, of the names that came first in the document, at most L share a place of a table that has at least as many places (Spread; 65 names with L = 1 are given as an example), in the Srl format besides 4 for each byte of the names of the tree; never more than quadratic (time_quadratic). Violations: 2^n names of letters and digits with the same hash (same_hash) make the work quadratic in each format (json_time, srl_time, msgpack_time); in the Srl format one long name that is referred to often does so too (srl_again_time). Not counted: what parsers do to read a token; documents on which loading fails."
  },
  {
   "property": "C91",
   "status": "partial",
   "theorems": [
    "Srl.Props.srl_object_partial",
    "Srl.Props.srl_described_once",
    "Srl.Props.srl_object_stream_partial",
    "Srl.Props.srl_object_unknown",
    "Srl.Props.srl_object_example"
   ],
   "note": "Proved for all types of the typed model that are scopes, against the relation between documents and objects of C82 and the grammar of what is accepted of C89, which the library takes completely: the object described is restored, loaded first; while reading if the document has no scopes that the type has no place for. Violated otherwise: while reading, elements behind an unknown array are lost (srl_object_unknown). From streams if names are shorter than 1024 bytes (C28). Documents nested at most 128 deep."
  },
  {
   "property": "C92",
   "status": "partial",
   "theorems": [
    "Srl.Props.tree_again_partial",
    "Srl.Props.srl_save_again_partial",
    "Srl.Props.tree_again_slow",
    "Srl.Props.trees_not_as_new",
    "Srl.Props.srl_save_again_slow",
    "Srl.Props.parsers_not_as_new",
    "Srl.Props.srl_save_quadratic"
   ],
   "note": "Violated: tables that are cleared keep their size, so after a document with n different names, every later document with a name takes at least n, however small it is (tree_again_slow, srl_save_again_slow); no factor suffices (trees_not_as_new, parsers_not_as_new). Proved: the bound of C90 with a term for the largest document before, for loading with any parser and for saving in the Srl format (with the names in the order in which they are read or written, and the condition of C90); saving shares the violation of C90 (srl_save_quadratic)."
  },
  {
   "property": "C93",
   "status": "partial",
   "theorems": [
    "Srl.Props.restore_time",
    "Srl.Props.restore_time_names",
    "Srl.Props.msgpack_restore_time",
    "Srl.Props.json_restore_time",
    "Srl.Props.srl_restore_time_partial",
    "Srl.Props.srl_restore_quadratic",
    "Srl.Props.srl_tables_slow",
    "Srl.Props.msgpack_read_time",
    "Srl.Props.json_read_time",
    "Srl.Props.srl_read_time_partial"
   ],
   "note": "Proved in full for MessagePack and JSON, from trees and while reading, and for Srl with all types that have no tables in them; for tables the square of the size (srl_restore_quadratic). Violated for tables in the Srl format: names that the document has once are copied into each table, so that no factor suffices (srl_tables_slow). What the containers of an object do to add an element is not counted."
  },
  {
   "property": "C94",
   "status": "partial",
   "theorems": [
    "Srl.Props.msgpack_saved_size",
    "Srl.Props.srl_saved_size",
    "Srl.Props.srl_saved_all",
    "Srl.Props.json_saved_size",
    "Srl.Props.json_readable_size_partial",
    "Srl.Props.msgpack_resaved",
    "Srl.Props.json_resaved",
    "Srl.Props.srl_resaved",
    "Srl.Props.srl_resaved_quadratic_partial",
    "Srl.Props.srl_msgpack_large",
    "Srl.Props.srl_json_large",
    "Srl.Props.json_readable_large"
   ],
   "note": "Proved for all trees saved as MessagePack (factor 14), Srl (22) and compact JSON (36), and for all documents loaded from MessagePack and JSON and saved in any format, and loaded from and saved as Srl. Violated for JSON in lines, where the factor grows with the nesting (json_readable_large; json_readable_size_partial has the factor with the nesting), and for Srl documents saved in another format, where names the document has once are written each time (srl_msgpack_large, srl_json_large; the square of the size is proved instead)."
  },
  {
   "property": "C95",
   "status": "partial",
   "theorems": [
    "Srl.Props.keys_restored",
    "Srl.Props.keys_loaded",
    "Srl.Props.keys_time_partial",
    "Srl.Props.keys_stored",
    "Srl.Props.keys_given",
    "Srl.Props.pointers_restored",
    "Srl.Props.restores_once",
    "Srl.Props.added_looked",
    "Srl.Props.pointers_time_partial",
    "Srl.Props.keys_near_spread",
    "Srl.Props.keys_nested",
    "Srl.Props.pointers_loaded_partial",
    "Srl.Props.stored_loaded_partial",
    "Srl.Props.stored_srl_partial",
    "Srl.Props.stored_msgpack_partial",
    "Srl.Props.stored_json_partial",
    "Srl.Props.pointers_read",
    "Srl.Props.pointers_each",
    "Srl.Props.pointers_read_partial",
    "Srl.Props.stored_read_partial",
    "Srl.Props.read_srl_partial",
    "Srl.Props.read_msgpack_partial",
    "Srl.Props.read_json_partial",
    "Srl.Props.keys_quadratic",
    "Srl.Props.keys_not_proportional",
    "Srl.Props.keys_document"
   ],
   "note": "Violated: a MessagePack document of at most 462 n + 14 bytes with n shared pointers takes at least n(n-1) steps (keys_quadratic, keys_document; no factor below 2^29 does, keys_not_proportional). Proved for keys in the order in which storing numbers them: at most 12 n + 80 steps for a sequence (keys_time_partial), and at most 76 n + 224 for objects of any type with pointers in the objects of pointers, in any format (pointers_loaded_partial, from keys_nested and the limit on nesting); for other keys if at most L share a place (pointers_time_partial). What is looked up and added is proved to be what restoring does, for all types (pointers_restored, restores_once). That storing gives keys in order is proved for objects of any type (keys_given, keys_stored for vectors); that they are looked up in that order when the stored document is loaded and restored, so that the bound holds for it, is proved for all types and formats (stored_loaded_partial, stored_srl_partial, stored_msgpack_partial, stored_json_partial: acyclic graphs without null pointers, nested no deeper than can be loaded). While a document is read, one key is looked up for each pointer in what is restored (pointers_read, pointers_each), and what is done is in proportion to them if at most L keys share a place (pointers_read_partial); for objects that were stored this holds with L = w/16 + 2, where w is how deep the document is nested (stored_read_partial, read_srl_partial, read_msgpack_partial, read_json_partial). Missing: a bound without w for documents that are nested deeper than can be loaded, and documents that were not stored so."
  },
  {
   "property": "C96",
   "status": "partial",
   "theorems": [
    "Srl.Props.addresses_stored",
    "Srl.Props.met_once",
    "Srl.Props.addresses_time_partial",
    "Srl.Props.addresses_time_stored_partial",
    "Srl.Props.addresses_spread",
    "Srl.Props.addresses_array",
    "Srl.Props.addresses_quadratic",
    "Srl.Props.addresses_not_proportional",
    "Srl.Props.addresses_vector"
   ],
   "note": "Violated: n objects that lie 64 KiB apart share one place, and storing a vector of shared pointers to them takes at least n(n-1)/2 steps for all n below 2^14 (addresses_quadratic, addresses_vector; no factor below 2^12 suffices, addresses_not_proportional). Proved for all types and graphs: the addresses that are met are added one after the other (addresses_stored, met_once), and if at most L of them share a place in tables that are large enough this takes at most (3 L + 8) n + 16 (L + 4) steps (addresses_time_partial, addresses_time_stored_partial). Objects of one size that lie one after the other in one part of 2^32 bytes are spread with L the power of two in their size (addresses_spread, addresses_array). Other layouts of memory are not covered by a condition of their own."
  }
 ]
}