# Machine-checked model of Srl

Source under study: `/repo` (C++, read as text, unchanged, never built or run).
Proofs: Lean 4.33.0, Lake project in `lean/`, modules under `lean/Verif/`: `Model/` (definitions with citations of
the source), `Lemmas/` (helper lemmas), `Props/` (specifications and property theorems).

`properties.jsonl` has the properties, `MANIFEST.json` the theorems for each of them, `seeded/LOG.jsonl` the wrong
programs the theorems were tried against.

## Trusted base

* The Lean kernel. No axioms of our own, no `sorry`, no `native_decide`, no `bv_decide`.
* The axioms of Lean's logic, per theorem as printed by `#print axioms`:
* `none` only: `met_once`.
* `propext` only: `array_truncated`, `assigned_root_dangles`, `enumerates_perm`, `find_nodes_exact`, `int_min_text_undefined`, `loaded_from_itself`, `moved_to_itself`, `ofDouble_infinite`, `raw_pointer_usable_partial`, `short_text_is_gone`, `unescaped_text_is_gone`, `unescaped_text_is_overwritten`, `written_without_name`.
* `propext, Quot.sound` only: `array_char`, `array_same_encoding`, `failed_output_returns`, `heap_after_refusal`, `heap_overaligned`, `loaded_srl_undefined`, `memory_names`, `moved_from_table_ends`, `moved_from_table_is_cleared`, `moved_from_table_is_iterated`, `moved_into_table_is_cleared`, `msgpack_even`, `msgpack_ext_rejected`, `msgpack_next_value`, `msgpack_output_wrong`, `msgpack_reserved_accepted`, `msgpack_reuse`, `msgpack_saved_size`, `msgpack_tokens_memory`, `msgpack_tree_memory`, `namesShort_small`, `narrow_exact`, `nesting_bounded`, `node_edit_others`, `node_get_position_partial`, `node_get_position_undefined`, `node_history_unique`, `out_memory_wraps`, `out_stream_wrong`, `output_to_pipe_is_lost`, `pointers_each`, `raw_pointer_dangles`, `rootUnnamed_msgpack`, `rootUnnamed_srl`, `scope_behind_ends_object`, `spread_one`, `srl_names_once`, `srl_negate_undefined`, `srl_next_value`, `srl_overread`, `srl_pointer_overflow`, `srl_resaved`, `srl_saved_all`, `srl_saved_size`, `srl_shift_undefined`, `srl_stream_announced_size`, `srl_tokens_memory`, `srl_tree_memory`, `stream_announced_size`, `stream_long_name`, `stream_long_name_wrong`, `vlq_encode_spec`, `vlq_minimal`, `weak_kept`.
* `propext`, `Classical.choice`, `Quot.sound`: the other 469 theorems named in MANIFEST.json.
* That the Lean definitions describe the C++ code. Each definition cites file and lines and says where it simplifies.
* x86-64 conventions of the platform: little endian, 8-bit bytes, 64-bit `size_t` and pointers, signed `char`, 4-byte
  `wchar_t`, IEEE-754 floats, two's complement; signed overflow, over-wide shifts, out-of-range conversions from
  floating point, reads and writes outside of objects and pointer overflow count as undefined.
* Behaviour of code outside the library, stated as definitions or parameters:
  `iconv` (`Model/Chars.lean`: decode one encoding, encode the other, stop at the first invalid unit),
  `strtod` (a parameter; `Dec.Rounds` says what a correct one does, and `Dec.rounds_some` that there is one),
  the standard containers (lists), `std::hash` and the hash functions of tables (arbitrary functions),
  `std::vector::resize` (moves exactly when the capacity is exceeded), streams (deliver a list of bytes, then end).

## Modelling conventions

* `Res α` = `ok a` | `err` (a `Srl::Exception`) | `ub` (undefined behaviour in C++) | `fuel` (step budget of a
  recursive model function used up). `ub` and `fuel` are results in their own right: a theorem that says `.ok` or
  `.err` says that neither happens. Termination theorems (C09 and others) show that `fuel` never comes out.
* Bytes are `UInt8`, byte strings `List UInt8`. Machine integers are `Nat`/`Int` with wrap-around written out.
* A memory source is the list of its unread bytes plus `Mem`: the byte behind the buffer (`none` = not readable,
  reading it is `ub`) and the end address (so that pointer overflow is visible).
* `Parser::read`/`write` work on tokens (`Event`: a name, and a value, the begin or the end of a scope). Trees are
  `Node`s with separate lists of values and nodes, as in the code.
* Floating point values are bit patterns; `Model/Fp.lean` gives them exact numeric meaning.
* A property that the code violates is kept as stated. Its negation is proved with a concrete witness
  (`_wrong`, `_undefined`, `_overread`, …), and what does hold is proved under explicit conditions (`_partial`).

## What is modelled

| module (`Model/`) | source | left out |
|---|---|---|
| `Apply`, `Fp` | TpTools.h `apply_fnc`, `overflows`, `try_apply`; Resolve.hpp number switches; Value.hpp narrowing of doubles | `long double` |
| `IntStr` | ToolsStrConv.cpp `str_to_int`, `conv_type` of integers, `trim_space` | `strtod` |
| `Fpconv` | src/lib/fpconv: `fpconv_dtoa` with all its functions and tables | the estimate of the index of a power of ten is computed without the rounding of doubles |
| `Base64`, `Hex` | ToolsBtsConv.cpp | – |
| `Fnv` | Hash.cpp | – |
| `Vlq`, `PSrl` | PSrl.cpp writer and reader | pointers to names (see `Names`) |
| `Names` | PSrl.cpp `write_head` with pointers, Blocks.h `MemBlock`, Environment.cpp `write_conv` | values are given as such |
| `PMsgPack` | PMsgPack.cpp writer (with reservations) and reader | – |
| `PJson` | PJson.cpp writer and reader with the capacity of its buffers | sources and strings of 4 GiB and more (32-bit counters) |
| `Reuse` | all members of the parser objects, `clear` | – |
| `In`, `Stream`, `StreamJson` | In.cpp, In.hpp for memory and streams | blocks are copied at once (in the code they are used up before the next operation) |
| `Out` | Out.cpp, Out.hpp, memory and streams, reservations | failing streams |
| `HTable` | Hash.h, Hash.hpp: buckets, chains, entry cache, redistribution | tables of 2^32 buckets (32-bit loop counters); constructors and moves |
| `Heap` | Heap.h, Heap.hpp, Heap.cpp: segments, splitting, alignment | link objects, moving, destructor: see `HeapLinks` |
| `Doc` | Node.cpp/Tree.cpp reading of documents with the depth limit | – |
| `NodeApi` | Node.cpp, Union.hpp: insertion, lookup, removal, enumeration | address reuse; callbacks that change the tree |
| `Typed` | Resolve.hpp, Context.hpp, Node.hpp, Tree.hpp, Node.cpp `consume_*`: storing and restoring | see its header |
| `Shared` | Resolve.hpp 760–836, Node.cpp `find_shared`, `insert_shared` | polymorphic pointees |
| `Registration` | Registration.h, Registration.cpp, polymorphic pointers | that factories make objects of the right base class |
| `Chars` | ToolsStrConv.cpp character sets, strings and character arrays in Resolve.hpp | `iconv` itself |
| `BitWrap` | BitWrap.h `VecWrap`, Resolve.hpp 838–899 | `BitWrap` with functions of the user |
| `Tree` | Tree.cpp, Environment.cpp: flag `parsing`, parser pointer, shared table, root; Node.hpp 12–66 `insert` | moving trees (see `Own`); `Tree::restore`, `unpack` (see `Session`) |
| `Own` | Environment.cpp, Blocks.h, Tree.cpp, Node.h: to which memory values, names and nodes point, and how long it lives | the content of the heap and of the string table beyond that (see `Heap`, `HTable`), conversion of names, output |
| `TableMove` | Hash.hpp:11-29, Hash.h:47-57: several tables, moving, destructors, whose heap the memory is in | aliasing of the array kept by a table moved from (what iterating over it shows after the target has changed); trivially destructible keys and values |
| `Union` | Union.hpp, Node.cpp:198-231,279-327,514-535, Resolve.hpp:261-273: getting, unpacking and unwrapping unions | a union is the value or node itself instead of a pointer to it; Union::field_type and type_id |
| `OutFail` | Out.hpp:9-67, Out.cpp:8-48 with a stream in which any operation may fail | the stream, which is not in the repository, is described by which of its operations fail |
| `Views` | Resolve.hpp:245-259, Node.cpp:373-413, Tree.cpp:30-50, 77-83 with the memory of `Own` | members that are `Srl::String`s only; texts that are values of the root; sources in one buffer |
| `Session` | Tree.hpp:71-79, 99-103, Tree.cpp:30-50, 71-91, Node.hpp:98-137: sequences of calls that read | trees on which storing has thrown; what calls that throw leave behind (anything); writing between calls that read on |
| `LoadObject` | Tree.hpp:15-42, 159-164: `load_object` as insertions into the root after `clear` | shared and weak pointers inside the object (the types of `Typed`) |
| `HeapLinks` | Heap.h, Heap.cpp in full: the link objects, the lists made of them, several heaps, moves, copies, destructors, refused arrays | numbers of deleted objects are not used again; `new` of a link object never fails |
| `Cost` | Environment.cpp:50-73, Hash.hpp:48-113, 160-213 with a count of rounds and of bytes hashed and copied | comparing names once their hashes agree, what parsers do to read a token, allocation |
| `CostAgain` | Tree.cpp:30-38 with Environment.cpp:220-226 and PSrl.cpp:119-142, 174-221, with the same count, on tables that were used before (Hash.hpp:51-57, 215-235) | what `Heap::clear` does |
| `RestoreCost` | `pasteNode` and `pasteFields` of `Typed` with a count: Resolve.hpp:399-422, 494-603, 637-757, 935-948, Context.hpp:61-86, Node.cpp:55-122, 166-195, 664-679 | what the containers of an object do to add an element |
| `KeyCost` | Node.cpp:547-559, Hash.h:30-33, 47, Hash.hpp:48-113, 160-213 with a count of rounds | what the pointers are restored to (`Shared`), allocation |
| `AddrCost` | Node.cpp:537-545, Environment.h:32-38, Hash.hpp:48-113, 160-213 with a count of rounds | what is stored behind the pointers (`Shared`), allocation |
| `LookCost` | Node.cpp:547-559 for objects with pointers in the objects of pointers, with a count of rounds | as `KeyCost` |
| `ReadCost` | `paste`, `pasteMembers` and `restore` of `Typed` with a count: Tree.hpp:133-158, Node.hpp:105-130, 156-168, Node.cpp:124-138, 246-494, 514-535, 664-684, Context.hpp:61-86, Resolve.hpp:399-422, 494-603, 637-757, 935-959 | what the parsers do for a token (C87); what the containers of an object do to add an element |

Not modelled at all: threads, failure of allocation (except announced sizes of streams), the size of the stack
(how deep calls nest is the subject of C08 and C77), exception texts, the build. Root objects that are
`shared_ptr` or `unique_ptr` do not compile and are outside all theorems.

## Defects of the code found by the proofs

Each has a proved witness; the names are those of theorems in `Props/`.

* Base64: misplaced padding accepted (`base64_accepts_misplaced_padding`), bytes ≥ 128 index the table with a negative
  number (`base64_non_ascii_undefined`), texts shorter than a group restore as empty (`base64_restore_accepts_short`).
* Floating point members in JSON: negative zero comes back positive (`json_negative_zero`), doubles written with
  digits only come back as other numbers (`json_double_member`); infinities held as doubles are not unwrapped as
  float (`unwrap_double_infinity`), signalling NaNs become quiet (`float_signalling_nan`).
* Numbers: NaN, 2^63, 2^64 reach undefined conversions (`fp_unwrap_undefined`, `restore_poison_undefined`); digits
  beyond 2^64 wrap silently (`int_text_wrong`); `INT64_MIN` is negated (`int_min_text_undefined`, `json_save_undefined`).
* Srl format: one byte read past the source (`srl_overread`), shift by 63 and more (`srl_shift_undefined`), pointer
  overflow for announced sizes (`srl_pointer_overflow`), negation of `INT64_MIN` (`srl_negate_undefined`); pointers to
  names outlive the names (`srl_names_dangling`, `srl_wide_names_dangling`).
* MessagePack: lengths of str 16/32 and bin 16/32 in native byte order, written and read (`msgpack_output_wrong`,
  `msgpack_input_wrong`); reserved byte C1 accepted (`msgpack_reserved_accepted`).
* JSON: names are not escaped (`json_name_quote`, `json_name_backslash`, `json_truncated_accepted`,
  `json_layout_matters`); `\uXXYY` read with swapped bytes (`json_unicode_wrong`) and written past a buffer
  (`json_escape_overflow`, `json_reuse_differs`); kinds of brackets not compared (`json_brackets_unmatched`); one byte
  read past the source (`json_overread`); large integral doubles wrong (`json_double_wrong`,
  `json_double_concrete`).
* Streams: names of the Srl format of 1024 bytes and more (`stream_long_name`, `stream_long_name_wrong`), JSON literals
  of that length (`json_stream_long_literal`), also if they are short but followed by as many line ends
  (`json_stream_blank_lines`), memory allocated for announced sizes (`stream_announced_size`,
  `srl_stream_announced_size`).
* Output: sizes wrap at 4 GiB (`out_memory_wraps`); reservations on a stream that already holds data seek to the wrong
  place (`out_stream_wrong`). Heap: alignments above 16 are not honoured (`heap_overaligned`).
* Nodes: `get(size_t)` dereferences a null pointer (`node_get_position_undefined`).
* Restoring: a scope behind the last field ends the object early (`restore_wrong_object`,
  `restore_throws_unknown_scope`, `scope_behind_ends_object`); malformed rests accepted (`restore_accepts_malformed`);
  too long arrays accepted (`restore_array_too_long`); optional names that occur twice (`optional_twice`); null pointers
  (`null_unique_to_zero`, `null_scope_pointer_throws`, `null_vector_shrinks`, `null_shared_throws`,
  `null_shared_vector_shrinks`); raw pointers left dangling (`raw_pointer_dangles`).
* Character arrays: terminator at the wrong index (`array_truncated`, `array_overrun`), arrays without terminator
  (`array_unterminated`).
* Wrapped vectors: sizes that are no multiple of the element size are written behind the vector
  (`vecwrap_writes_outside`).
* Initializer lists inserted while storing: the array is empty, the elements go to the enclosing scope
  (`list_while_storing`).
* Weak pointers: those back to owners and expired ones cannot be restored (`weak_parent_throws`,
  `weak_expired_throws`).
* Shared pointers: keys confuse classes (`shared_type_confusion`), cycles and declaration order
  (`shared_cycle_throws`, `shared_declaration_order`), second store loses content (`shared_store_twice`).
* Trees: after a failed store values are lost (`insert_after_failed_store`, `load_after_failed_store`,
  `shared_after_failed_store`).
* Memory of trees: assigned roots share memory with the other tree (`assigned_root_dangles`), a tree moved to itself
  has no root (`moved_to_itself`), a tree loaded from its own bytes reads what was cleared (`loaded_from_itself`),
  writing a node made with `Node(tree)` dereferences a null pointer (`written_without_name`).
* Moved hash tables: the target uses memory of the source's heap, which is gone when the source ends or is cleared
  (`moved_from_table_ends`, `moved_from_table_is_cleared`); the source still shows entries to its iterators
  (`moved_from_table_is_iterated`), as does a cleared target, although they are destroyed (`moved_into_table_is_cleared`).
* Unpacking unions: a union skips the rest of the scope it is in, so whatever is unpacked after it and was stored behind
  everything asked for up to then is not found (`unions_in_order_throw`, `object_behind_union_throws`).
* Failing streams: calls return although the stream failed (`failed_output_returns`); MessagePack documents longer than
  the buffer make streams fail that one cannot move in (`output_to_pipe_is_lost`).
* `Srl::String` members: short texts dangle when members are not in the order of the document (`short_text_is_gone`);
  unescaped texts point into the parser (`unescaped_text_is_overwritten`, `unescaped_text_is_gone`).
* Trees after unpacking: items asked for again are not found (`asked_again`), the tree points to a parser that may be gone
  (`parser_is_gone`), and its root holds only what was passed (`unpacked_root_is_rest`).
* `load_object`: the root keeps the type it had. Vectors become objects with empty names and numbers a member without name
  (`loaded_vector_is_object`); in a tree that held an array names are lost on saving (`names_of_loaded_object_lost`) and pairs cannot
  be taken out (`loaded_pair_is_rejected`); after a failed store the object goes to the old parser (`load_object_after_failure`).
* Heaps: if the system refuses an array, the rest of the current segment is on the free list and still in use; blocks obtained later
  overlap (`heap_after_refusal`). A copied heap gives its memory back twice (`copied_heap`).
* Restoring while reading has no limit of nesting for classes with shared pointers to their own class: documents can nest calls as
  deep as they like (`restore_depth_srl`, `restore_depth_msgpack`, `restore_depth_json`), although loading them throws.
* Saved JSON is no JSON if a string has control characters without a short escape or a name needs escapes, and for infinities
  (`json_output_control`, `json_output_control_name`, `json_output_inf`); with names from elsewhere one value can pose as several
  (`json_output_name`).
* JSON texts that are a single string, number or literal are rejected (`json_input_scalar`).
* Restoring while reading loses elements behind an object with an array or object it has no member for, without an error
  (`json_object_unknown`); loading the document first does not.
* Integers from `2^53` up that are written with a fraction or exponent are restored as others (`json_object_integer`).
* A class that has lost a member which is a list or an object: restoring a sequence of such objects while reading loses
  its elements behind the first one, in all formats and without an error (`version_lost`).
* MessagePack from other encoders: elements behind a map with an array or map that the class has no member for are lost
  while reading (`msgpack_object_unknown`), and likewise in the Srl format (`srl_object_unknown`).
* Comments in JSON: behind a number, truth value or `null` without a blank between they are an error
  (`comment_behind_number`); a comment at once behind another of the kind `/* */` reaches to the end of the line
  (`comment_twice`); a comment beginning with `/*/` ends there (`comment_slash`).
* Tables restored from Srl copy names that a document refers to by index: memory grows with the square of the size of the
  document (`tables_memory`). From streams, sizes are believed before the bytes are there (`stream_announced_size`).
* Texts that are not JSON are accepted: `{hello world}` is an empty object, so is `{"a"}`, and `[1 2]` has two elements
  (`json_garbage`, `json_no_value`, `json_no_comma`).
* Bytes that are not MessagePack are accepted: a key that is no string loses its first byte and counts as empty, the
  rest of it is taken for the value (`msgpack_any_key`, `msgpack_number_key`); the reserved byte C1 is the number -31.
* Documents in a stream cannot be read one after the other: up to 1024 bytes behind a document are read with it and lost
  (`msgpack_stream_lost`, `srl_stream_lost`, `json_stream_lost`).
* Saving in the Srl format is undefined for a MessagePack document with `-2^63`, and a JSON text with an escaped quote in a
  name is saved as a text that cannot be loaded (`loaded_srl_undefined`, `loaded_json_name`).
* Bytes that cannot have been saved are loaded as documents in the Srl format: of flags only some bits are looked at, and
  numbers may have more bytes than they need and are cut to 64 bits (`srl_stray_bits`, `srl_number_wraps`).
* The time to load a document can grow with the square of its size: the hash of names is FNV-1a without a secret, so that
  names can be chosen that are all in one chain of the table of names (`json_time`, `srl_time`, `msgpack_time`). In the
  Srl format a long name that is referred to often is hashed each time (`srl_again_time`).
- **C92** `HTable::clear` (Hash.hpp:215-227) keeps the capacity of the table, and the first name that is added afterwards
  allocates and clears a table of that capacity (Hash.hpp:51-57). After one document with `n` different names, loading
  `{"a":null}` into the same tree, or saving it with the same Srl parser, takes at least `n` rounds each time.
- **C93** Tables restored from the Srl format get a copy of each name (Resolve.hpp:945-948, 955-959), where the document
  has a name once and its index of one byte afterwards. An array of `n` objects that share a name of `n` bytes is a document
  of about `6n` bytes and takes more than `n²` steps and bytes to restore.
- **C94** JSON in lines indents each item by as many tabs as there are scopes around it (PJson.cpp:155-175), so that `n`
  arrays nested in each other take more than `n²/2` bytes. A document in the Srl format has each name once; saved as
  MessagePack or JSON it has them in full each time, so that a document of about `6n` bytes can take more than `n²`.
- **C95** The hash of a key of a shared pointer is the key itself (Hash.h:30-33), and its place in the table of shared
  objects is its two halves combined, modulo the capacity. A document can choose keys that are all in one place: `n`
  shared pointers with the keys `i·(2^32+1)` take at least `n(n-1)` rounds to restore, in a document of about `462n` bytes.
- **C96** The hash of an address is the address (Environment.h:32-38) and the capacity is a power of two, so that the places
  of objects of `2^s` bytes agree in `s` bits: of a table with 16-byte alignment a sixteenth is used, and objects of 64 KiB
  (large arrays, or what `malloc` puts on pages of its own) are all in one chain, which takes the square of their number.

## Properties

What is missing in partial ones is said in MANIFEST.json and beside the theorems.

| id | property | status | model and proof |
|----|----------|--------|-----------------|
| C01 | Srl format round trip | proved | PSrl writer and reader over tokens; per-token simulation (stack and name table agree), induction over documents |
| C02 | MessagePack round trip | proved | PMsgPack writer with reserved counters, reader with counters; induction over documents |
| C03 | JSON round trip | partial | PJson writer and reader on bytes; induction over documents |
| C04 | Typed restore inverts store | partial | universe of C++ types, `Switch` functions; induction over types, on top of C01–C03 |
| C05 | Restore does not depend on field order | proved | `consume_*` on partially read nodes; permutation argument through a specification of restoring |
| C06 | Unknown fields are skipped on restore | partial | as C05, with documents that have more fields than the type |
| C07 | Restoring directly equals loading and unwrapping | partial | restoring while reading and from a loaded tree; refinement of both to one specification |
| C08 | Nesting limit | proved | `read_source` depth counter; induction for every token reader |
| C09 | Loading always terminates | proved | step budget; a budget of the length of the input never runs out |
| C10 | Parsing never reads outside the source | partial | sources with the byte behind them and the end address explicit; invariants of every reader |
| C11 | Truncated documents are rejected | partial | simulation of the reader on a prefix against the reader on the whole |
| C12 | Trailing bytes are not consumed | proved | round trips with arbitrary suffixes |
| C13 | Integer unwrap is exact or throws | proved | decision logic of `try_apply`/`overflows` |
| C14 | Floating point to integer unwrap never yields garbage | partial | doubles as exact numbers; decision logic |
| C15 | Doubles keep their value when stored compactly | proved | narrowing on bit patterns; arithmetic |
| C16 | Integers survive conversion to text | proved | digit loops; induction |
| C17 | Integer text is parsed exactly | partial | digit loops modulo 2^64; induction |
| C18 | Base64 round trip | proved | induction against a specification of RFC 4648 |
| C19 | Malformed base64 is rejected | partial | decision logic of the decoder |
| C20 | Hex conversion | proved | induction |
| C21 | Variable length integers of the Srl format | proved | induction |
| C22 | Names hash with standard 64-bit FNV-1a | proved | unrolled loop against the plain loop; induction |
| C23 | Hash table is a map | proved | chains of entries with addresses; refinement to an association list over all histories |
| C24 | Hash table iteration | proved | as C23 |
| C25 | Heap blocks never overlap | proved | segments and addresses; invariant over all histories |
| C26 | In-memory output preserves order | partial | segments; refinement to a byte list |
| C27 | Stream output equals in-memory output | partial | stream with position; refinement |
| C28 | Stream input equals in-memory input | partial | stream buffer with anchor and margin; simulation against the memory source, for each reader |
| C29 | JSON string escaping is invertible | proved | induction |
| C30 | JSON unicode escapes | partial | case analysis against a UTF-8 specification |
| C31 | JSON scopes are matched | partial | every accepted text against a bracket specification |
| C32 | Parsers can be reused | partial | parser objects with all members; equality of states after `clear` |
| C33 | Node lookups and edits | proved | lists of links; refinement to histories |
| C34 | Recursive queries visit everything once | proved | induction over trees |
| C35 | Positional access is checked | partial | case analysis |
| C36 | Shared pointers keep their sharing | partial | graphs of shared objects, class tables; simulation up to renaming of addresses |
| C37 | Storing twice gives the same output | partial | state of `Environment` over all sequences of calls; invariant |
| C38 | A failed store leaves the tree usable | partial | as C37 |
| C39 | MessagePack output conforms to the format specification | partial | separate decoder after the MessagePack specification |
| C40 | MessagePack input conforms to the format specification | partial | as C39 |
| C41 | Type registration | proved | table of C23 over all histories |
| C42 | Fixed-size arrays demand the right number of elements | partial | restoring on both paths |
| C43 | Saved form is stable | proved | corollary of C01, C02 |
| C44 | Field names are written once in the Srl format | proved | invariant of the name table |
| C45 | JSON layout is irrelevant | partial | corollary of a layout-independent token theorem |
| C46 | Optional fields | partial | case analysis on partially read nodes |
| C47 | Null pointers survive a round trip | partial | pointer switches |
| C48 | Conversion between formats | proved | composition of round trips |
| C49 | Number formatting never overruns its buffer | proved | arithmetic |
| C50 | Restoring into character arrays | partial | character arrays; arithmetic |
| C51 | Pointers into the hash table | proved | as C23 (addresses) |
| C52 | Wide strings survive a round trip | proved | `conv_charset` around a specified `iconv`; induction |
| C53 | Storing character arrays | partial | as C50 |
| C54 | Pointers stay usable when restoring throws | partial | pointer switches with `delete` explicit |
| C55 | Documents cannot confuse the types of shared objects | partial | restoring shared pointers with classes explicit; invariant |
| C56 | Restoring an object from untrusted bytes is safe | partial | invariant of restoring: no outcome `ub` or `fuel` |
| C57 | Storing and saving leave the tree as it was | partial | as C37 |
| C58 | A name need only be valid while it is passed | partial | writer with pointers to names and a changing memory; simulation against the writer with values |
| C59 | Doubles survive as text | proved | error analysis of Grisu2 over the rationals: products with the rounded powers of ten, digit loops with invariants; separate decimal reader |
| C60 | Numbers unwrapped as float or double are the nearest | partial | generic rounding to binary formats (`roundAt`) proved nearest with ties to even |
| C61 | Restored objects are objects of their type | proved | invariant over the induction on types, for an arbitrary reader |
| C62 | Maps and sets have the first entry for each key | proved | the tree of the container as ascending list; characterised by its elements |
| C63 | Vectors stored as binary data come back | partial | vector with contents and capacity; case analysis |
| C64 | Containers come back whatever the order they are written in | partial | restoring commutes with sorting at all levels; simulation of the type without sorted containers; for repeated keys sorting is a permutation |
| C65 | Any of the packed items can be unpacked | partial | members one by one (C46) on the document of a stored class |
| C66 | Weak pointers come back | partial | ownership as reachability by pointers that are not weak; renaming of addresses |
| C67 | Storing writes what inserting adds | partial | both branches refined to the items in between; these are regrouped as a node keeps them |
| C68 | Trees own their content | partial | refinement: programs on memory with environments that can be cleared and destroyed simulate programs on plain content; invariant that all pointers of a tree lead into its own environment |
| C69 | Hash tables can be moved | partial | refinement to maps that are handed over, by an invariant on which heaps the pointers of each table lead to |
| C70 | Unions give what was stored under their name | partial | induction on paths for loaded trees; for unpacking an invariant on what of the scope was read, kept and taken out |
| C71 | A document that was not delivered is reported | partial | simulation of the output to a stream that does not fail (C27) |
| C72 | Restored Srl::Strings show the text that was stored | partial | invariant of the restore over the members asked for, the values kept aside and the fields not read, on the memory of C68 |
| C73 | A tree can be used for one document after the other | partial | simulation of sequences of calls by what the tree holds, with C70 for single documents |
| C74 | Objects loaded into a tree come back | partial | refinement: the items inserted are those stored; documents with values first have the form of the type, then C07 and C04 |
| C75 | Heaps give back all memory exactly once | proved | link objects and pointers; refinement of each list operation to lists and of each heap to the heap of C25; invariant over any number of heaps |
| C76 | A heap survives a refused allocation | partial | as C75, with a system that refuses arrays |
| C77 | Documents cannot nest restoring without limit | partial | recursion of `Shared.paste` bounded separately from the tokens; induction over loaded nodes, over types and ranks of classes; chains of objects as witnesses |
| C78 | What is saved as JSON is JSON | partial | grammar and meaning of RFC 8259 as inductive relations (`Props/JsonSpec.lean`); induction over trees with the state of the writer general; doubles through the shapes of texts fpconv gives |
| C79 | JSON is read as what it stands for | partial | same grammar; induction over derivations, each text of the grammar is taken to the items the reader gives, then to the tree |
| C80 | Objects are restored from any JSON that describes them | partial | relation between JSON values and objects of a type (`Props/JsonObjectSpec.lean`, recursion over types, no helper of the model); induction over types, texts taken to items by C79's derivation; restoring while reading by C07's equality |
| C81 | Later versions of a class read what earlier ones stored | partial | relation between objects of two types (`Props/VersionsSpec.lean`, recursion over the types); induction over the later type shows that stored items describe the object meant (`Lemmas/Described.lean`), which is what is pasted; restoring while reading by the equality of C07; uniqueness and reflexivity of the relation |
| C82 | Objects are restored from any MessagePack that describes them | partial | relation between documents and objects (`Props/MsgPackObjectSpec.lean`) and the format specification of C40; induction over types shows that documents as they are read still describe the object; then as C81; streams by C28 |
| C83 | Comments in JSON texts are skipped | partial | grammar of JSON with comments (`Props/JsonCommentSpec.lean`); the rounds of the reader as a relation without fuel, in which a text with a comment in front reads whatever the text behind it reads; then induction over the derivation as in C79, C80 and for streams |
| C84 | Documents cannot make the library hold much more than they have bytes | partial | measures of trees and objects (`Props/MemorySpec.lean`); each token read is paid for by bytes of the source (per format), then induction over reading and restoring, with what is held in a node and left of the source as potential; two counterexamples |
| C85 | Texts that are not JSON are rejected | partial | a grammar for what is accepted (`Props/JsonLaxSpec.lean`: strings, tokens, scopes) and for the tree; soundness by induction over the loops of the reader, completeness by induction over derivations; texts outside of JSON by an invariant of the grammar of RFC 8259 with comments |
| C86 | Bytes that are not MessagePack are rejected | partial | a grammar for what is accepted (`Props/MsgPackLaxSpec.lean`), with a switch for what MessagePack does not have; soundness by induction over the loop of the reader, completeness by induction over derivations; without the oddities every derivation is one of the MessagePack format of `Props/MsgPackSpec.lean` |
| C87 | Documents in a stream can be read one after the other | partial | invariant of the source, kept by every function of the three readers (`Lemmas/StreamNext.lean`): no more than 1024 bytes are in the buffer that have not been asked for, and a stream of up to 1024 bytes is used up after the second byte; with the simulation of C28 this gives what is left of the stream |
| C88 | What was loaded can be saved again, in any format | partial | what every reader guarantees of the values it returns (`Lemmas/Range.lean`), by induction on scopes what holds of all values of a tree (`Lemmas/Loaded.lean`), with the bounds of C84 on sizes and of C08 on nesting; these are the hypotheses of the round trips C01 to C03 |
| C89 | Only what could have been saved is loaded in the Srl format | partial | a grammar for what is accepted (`Props/SrlLaxSpec.lean`), with a switch for what the library does not write; soundness and completeness as for C86 (`Lemmas/SrlLax.lean`); without the oddities every derivation is what is written of its document, by induction over derivations, and what is written of a document has one, by induction over items (`Lemmas/SrlEven.lean`) |
| C90 | Loading takes time in proportion to the document | partial | the table of names with a count of what is done (`Model/Cost.lean`); amortised analysis: what growing costs is paid by a potential of the capacity, chains are as long as the specification of places allows; the lower bound by induction over names of one hash, all of which are in one chain (`Lemmas/Cost.lean`); the names were found by lattice reduction, that they have the hash 0 is checked by the kernel, for all lengths by induction |
| C91 | Objects are restored from any document in the Srl format that describes them | partial | the relation between documents and objects of C82 and the grammar of C89; by induction over derivations they consist of the tokens of their items, with values that are kept as they are (`Lemmas/SrlObject.lean`); then as C82; streams by C28 |
| C92 | Trees and parsers that were used before work as fast as new ones | partial | `loadInto` counts as `Cost.load` does, with the table of names of a tree that was used, which is cleared first; `Obj.stepsAll` counts what the writer of the Srl format does on its table; the potential argument of C90 for tables that begin with any capacity, and the capacity that `clear` leaves bounded by induction over what was done before (`Lemmas/CostAgain.lean`) |
| C93 | Restoring an object takes time in proportion to the document | partial | `nodeSteps` and `fieldSteps` follow `pasteNode` and `pasteFields` case by case; the bound `effort`, a sum over the members of classes, by induction over the type, with what the items of a node hold as the sum of what each holds (`Lemmas/RestoreCost.lean`), then C84 for what trees hold; the witness is a family of documents built with the grammar of C89. While reading, `pasteSteps` and `membersSteps` follow `paste` and `pasteMembers`; by induction over the type, what is done and a factor times what is left to read is at most the factor times what the node holds and what was left before (`Lemmas/ReadCost.lean`, with `Pays` of C84) |
| C94 | What is saved is not much larger than what it was saved from | partial | each event that is written is bounded by a fixed number and its bytes, for the Srl format up to what the table of names grows by (`Lemmas/SavedSize.lean`); the sum over the events of a tree is its size by induction over the tree, and C84 gives the size of loaded trees; the witnesses are the documents of C93 with one shared name, and arrays nested in arrays |
| C95 | Shared pointers are looked up in time in proportion to them | partial | the table of shared objects with a count of rounds; keys in order are lower than the capacity and each alone in its place, and the rounds are paid by a potential as for names (`Lemmas/KeyCost.lean`); for the negation each key is a multiple of 2^32+1, which the fold of the hash sends to place 0 at every capacity; for all types a relation says what is looked up and added, and keys that were looked up but not added are those of pointers around, of which there are no more than the nesting; for stored objects the order of the keys is followed by induction over what is stored (`Props/StoredLooks.lean`); while reading, the restored object tells what is looked up and added (`Props/ReadLooks.lean`), and it is followed beside what was stored (`Props/ReadStored.lean`) |
| C96 | Shared pointers are stored in time in proportion to them | partial | storing is followed by induction over the fuel with a relation that says what is met in which order; the rounds of the table are bounded as in C95 with any number of addresses in a place; for an array of objects two addresses share a place only if their numbers agree modulo the capacity divided by the power of two in their size |
