{"id": "C01", "title": "Srl format round trip", "statement": "A document (tree of named values, objects and arrays) written with the Srl binary format and loaded again yields the same document: same nesting, same order, same field names inside objects, same strings, binaries, booleans, nulls and floating point bits, and integers of equal numeric value.", "quantifier": "every document with any number of fields, any names, any 64-bit integer except the most negative one, strings below 4 GiB, nesting up to the documented limit", "why_tests_cant": "Documents are unbounded trees, and the name index shares state between all fields of a document; samples cannot cover the interaction.", "anchors": ["src/lib/PSrl.cpp: PSrl::write, PSrl::read, write_head, read_head", "src/lib/Node.cpp: Node::to_source, Node::read_source"]}
{"id": "C02", "title": "MessagePack round trip", "statement": "A document written with the MessagePack parser and loaded again yields the same document, integers being equal numerically.", "quantifier": "every document, with string/binary lengths below 2^32 and fewer than 2^32 elements per scope", "why_tests_cant": "Element counts are patched in after the fact for arbitrarily nested scopes; tests see a handful of shapes.", "anchors": ["src/lib/PMsgPack.cpp: PMsgPack::write, PMsgPack::read, write_str, write_bin, get_scope_info", "include/Srl/Out.hpp: Out::reserve, Out::write(Ticket)"]}
{"id": "C03", "title": "JSON round trip", "statement": "A document whose root is an object or array, written as JSON and loaded again, yields the same document (binaries come back as their base64 text, integers numerically equal).", "quantifier": "every document: all names, all string contents, all nestings, both the compact and the indented layout", "why_tests_cant": "Quoting, separators and layout interact for all byte contents and all nestings.", "anchors": ["src/lib/PJson.cpp: PJson::write, PJson::read, insert_in_quotes, read_unescape"]}
{"id": "C04", "title": "Typed restore inverts store", "statement": "Restoring an object from the output of storing it gives back an equal object.", "quantifier": "every value of every type built from booleans, integers, floating point numbers, strings, vectors, fixed arrays, tuples and structs nested arbitrarily", "why_tests_cant": "The type universe and the nesting are unbounded.", "anchors": ["include/Srl/Resolve.hpp: Switch", "include/Srl/Context.hpp: Context::operator()", "src/lib/Node.cpp: Node::consume_*"]}
{"id": "C05", "title": "Restore does not depend on field order", "statement": "A struct restored from a source whose fields appear in any order is the same as when they appear in declaration order.", "quantifier": "every permutation of the fields of every struct, at every nesting level", "why_tests_cant": "The number of permutations is factorial and they interact with the partially-read state.", "anchors": ["src/lib/Node.cpp: Node::consume_node, Node::consume_value, Node::consume_item"]}
{"id": "C06", "title": "Unknown fields are skipped on restore", "statement": "Fields present in a source that the restored type does not ask for do not influence the result.", "quantifier": "every struct, every set of additional values and additional nested scopes at every position", "why_tests_cant": "The failing shapes depend on the position and the nesting of the extra fields.", "anchors": ["src/lib/Node.cpp: Node::consume_scope"]}
{"id": "C07", "title": "Restoring directly equals loading and unwrapping", "statement": "Restoring an object while parsing the source gives the same object, or the same failure, as loading the whole source into a tree and unwrapping the root.", "quantifier": "every document and every struct type with distinct field names", "why_tests_cant": "Two different algorithms have to agree on all documents.", "anchors": ["include/Srl/Tree.hpp: Tree::restore", "include/Srl/Node.hpp: Node::paste_field", "src/lib/Node.cpp: Node::consume_*"]}
{"id": "C08", "title": "Nesting limit", "statement": "Loading a document succeeds in nesting depth up to the documented limit and throws for any deeper document, whatever its content.", "quantifier": "every document of every depth", "why_tests_cant": "The claim is about all documents beyond the limit, not one example.", "anchors": ["src/lib/Node.cpp: Node::read_source", "src/lib/Node.cpp: MAX_SAFE_NESTED_SCOPE_DEPTH"]}
{"id": "C09", "title": "Loading always terminates", "statement": "Loading any byte string in any of the formats either returns a tree or throws; it never runs forever.", "quantifier": "every finite byte string, each format", "why_tests_cant": "Fuzzing can only sample inputs.", "anchors": ["src/lib/PSrl.cpp: PSrl::read", "src/lib/PMsgPack.cpp: PMsgPack::read", "src/lib/PJson.cpp: PJson::read", "src/lib/Node.cpp: Node::read_source"]}
{"id": "C10", "title": "Parsing never reads outside the source", "statement": "Loading from a memory source only reads bytes belonging to that source and performs no undefined arithmetic.", "quantifier": "every byte string of every length, each format", "why_tests_cant": "Out-of-bounds reads of one byte are silent in tests.", "anchors": ["include/Srl/In.hpp: In::peek, In::move, In::pointer", "src/lib/PSrl.cpp: decode_integer"]}
{"id": "C11", "title": "Truncated documents are rejected", "statement": "Loading a proper prefix of a saved document throws.", "quantifier": "every document and every cut position", "why_tests_cant": "All cut positions of all documents.", "anchors": ["include/Srl/In.hpp: In::peek, In::read_block", "src/lib/Node.cpp: Node::read_source"]}
{"id": "C12", "title": "Trailing bytes are not consumed", "statement": "Loading a saved document followed by arbitrary further bytes gives the same tree as loading the document alone.", "quantifier": "every document and every trailing byte string", "why_tests_cant": "Unbounded documents and suffixes.", "anchors": ["src/lib/PSrl.cpp: PSrl::read", "src/lib/PMsgPack.cpp: PMsgPack::read", "src/lib/PJson.cpp: PJson::read"]}
{"id": "C13", "title": "Integer unwrap is exact or throws", "statement": "Unwrapping a stored integer as another integer type (or bool) succeeds exactly when the value is representable in the target type, and then gives that value.", "quantifier": "every source integer type, every value, every target integer type", "why_tests_cant": "2^64 values times all type pairs.", "anchors": ["include/Srl/TpTools.h: apply_type, try_apply, overflows"]}
{"id": "C14", "title": "Floating point to integer unwrap never yields garbage", "statement": "Unwrapping a stored floating point number as an integer type succeeds exactly when the number lies between the least and the greatest value of the type, and then gives its truncation; otherwise it throws.", "quantifier": "every double, every integer target type", "why_tests_cant": "Special values and boundaries are easily omitted.", "anchors": ["include/Srl/TpTools.h: try_apply"]}
{"id": "C15", "title": "Doubles keep their value when stored compactly", "statement": "A double placed in a value and unwrapped as double is the same number, although it is kept in single precision when possible.", "quantifier": "all 2^64 bit patterns", "why_tests_cant": "Exhaustive testing over doubles is infeasible.", "anchors": ["include/Srl/Value.hpp: Value::Value"]}
{"id": "C16", "title": "Integers survive conversion to text", "statement": "Converting an integer value to text and parsing the text gives the same number.", "quantifier": "every integer of every width, except the most negative 64-bit one", "why_tests_cant": "2^64 values.", "anchors": ["src/lib/ToolsStrConv.cpp: conv_type, str_to_int"]}
{"id": "C17", "title": "Integer text is parsed exactly", "statement": "When text consisting of an optional minus sign and digits is accepted as an integer, the resulting number is the one the digits denote.", "quantifier": "every digit string of every length", "why_tests_cant": "Overflow detection fails only for some lengths and leading digits.", "anchors": ["src/lib/ToolsStrConv.cpp: str_to_int"]}
{"id": "C18", "title": "Base64 round trip", "statement": "Decoding the base64 text of any bytes gives these bytes; the announced decoded size is their number.", "quantifier": "all byte strings", "why_tests_cant": "Unbounded lengths, three padding classes.", "anchors": ["src/lib/ToolsBtsConv.cpp: bytes_to_base64, base64_to_bytes, get_base64_decoded_size"]}
{"id": "C19", "title": "Malformed base64 is rejected", "statement": "Base64 text with a length that is not a multiple of four, a character outside the alphabet, or misplaced padding raises an exception.", "quantifier": "all byte strings", "why_tests_cant": "All malformed inputs.", "anchors": ["src/lib/ToolsBtsConv.cpp: base64_to_bytes"]}
{"id": "C20", "title": "Hex conversion", "statement": "Decoding the hex text of any bytes gives these bytes; decoding succeeds exactly for even-length texts of hex digits of either case that fit the destination.", "quantifier": "all byte strings, all destination sizes", "why_tests_cant": "Unbounded inputs.", "anchors": ["src/lib/ToolsBtsConv.cpp: bytes_to_hex, hex_to_bytes"]}
{"id": "C21", "title": "Variable length integers of the Srl format", "statement": "Every unsigned 64-bit integer is written in one to ten bytes, is read back exactly whatever follows it, and no shorter sequence reads back as that integer.", "quantifier": "all 2^64 integers and all following bytes", "why_tests_cant": "Too many values.", "anchors": ["src/lib/PSrl.cpp: encode_integer, decode_integer"]}
{"id": "C22", "title": "Names hash with standard 64-bit FNV-1a", "statement": "The string hash equals 64-bit FNV-1a of the bytes, whatever the length.", "quantifier": "all byte strings", "why_tests_cant": "The unrolled implementation has eight remainder classes and unbounded length.", "anchors": ["src/lib/Hash.cpp: hash_fnc"]}
{"id": "C23", "title": "Hash table is a map", "statement": "Any sequence of insert, upsert, get, remove, extract, remove_if and clear gives the answers a mathematical finite map gives (insert keeps the existing entry), for any hash function, any capacity and any load factor.", "quantifier": "all operation sequences, all keys, all hash functions including constant ones", "why_tests_cant": "Collisions and growth interact over unbounded histories.", "anchors": ["include/Srl/Hash.h", "include/Srl/Hash.hpp: HTable"]}
{"id": "C24", "title": "Hash table iteration", "statement": "foreach and the iterators visit every entry exactly once, and num_entries is their number.", "quantifier": "all tables reachable by any operation sequence", "why_tests_cant": "Unbounded histories.", "anchors": ["include/Srl/Hash.hpp: HTable::foreach, HTable::Iterator"]}
{"id": "C25", "title": "Heap blocks never overlap", "statement": "Memory obtained from the heap and not yet returned never overlaps other such memory, lies inside memory owned by the heap and is aligned as requested.", "quantifier": "all sequences of allocation (any size below 4 GiB - 16, any alignment of an ordinary type, i.e. up to 16), return and clear", "why_tests_cant": "Unbounded histories with recycling.", "anchors": ["include/Srl/Heap.hpp: Heap::get_mem", "src/lib/Heap.cpp: Heap::put_mem, Heap::alloc, Heap::clear"]}
{"id": "C26", "title": "In-memory output preserves order", "statement": "The bytes delivered after a sequence of writes, reservations and later fills are the concatenation of the writes with the reservations replaced by the fills.", "quantifier": "all operation sequences and sizes", "why_tests_cant": "Segment boundaries fall in arbitrary places.", "anchors": ["include/Srl/Out.hpp", "src/lib/Out.cpp", "src/lib/Heap.cpp"]}
{"id": "C27", "title": "Stream output equals in-memory output", "statement": "Writing to a stream appends to it exactly the bytes that writing to memory gives.", "quantifier": "all operation sequences, all previous stream contents", "why_tests_cant": "Depends on where buffer flushes fall and on the earlier stream content.", "anchors": ["src/lib/Out.cpp: Out::write_to_stream, Out::write(Ticket)", "include/Srl/Out.hpp: Out::alloc"]}
{"id": "C28", "title": "Stream input equals in-memory input", "statement": "Reading a stream gives the same bytes and the same failures as reading a memory buffer holding the same content.", "quantifier": "all contents and all sequences of read operations", "why_tests_cant": "Refill positions fall in arbitrary places.", "anchors": ["src/lib/In.cpp: In::try_fetch_data", "include/Srl/In.hpp: In::read_block, In::read_block_until, In::move"]}
{"id": "C29", "title": "JSON string escaping is invertible", "statement": "Any string content written as a JSON string and read back is unchanged, and reading stops exactly at the closing quote.", "quantifier": "all byte strings and everything that may follow", "why_tests_cant": "All contents.", "anchors": ["src/lib/PJson.cpp: insert_in_quotes, read_unescape", "include/Srl/Out.hpp: Out::write_substitute", "include/Srl/In.hpp: In::read_substitue"]}
{"id": "C30", "title": "JSON unicode escapes", "statement": "A \\uXXXX escape in a JSON string is read as the UTF-8 encoding of the code unit written with these four hex digits.", "quantifier": "all 65536 code units, every position within a string", "why_tests_cant": "Code units and buffer positions combine.", "anchors": ["src/lib/PJson.cpp: read_unescape", "src/lib/ToolsStrConv.cpp: conv_charset"]}
{"id": "C31", "title": "JSON scopes are matched", "statement": "JSON text in which an object is closed by a square bracket or an array by a curly one is rejected.", "quantifier": "all documents", "why_tests_cant": "All malformed documents.", "anchors": ["src/lib/PJson.cpp: process_bracket"]}
{"id": "C32", "title": "Parsers can be reused", "statement": "A parser object used before, successfully or not, behaves afterwards like a new one.", "quantifier": "all histories, each format", "why_tests_cant": "Unbounded histories of failures.", "anchors": ["src/lib/PSrl.cpp: PSrl::clear", "src/lib/PMsgPack.cpp: PMsgPack::clear", "src/lib/PJson.cpp: PJson::clear", "src/lib/Environment.cpp: set_input, set_output"]}
{"id": "C33", "title": "Node lookups and edits", "statement": "Looking up a name gives the first field inserted under it and not removed, throws when there is none, and edits do not affect other fields.", "quantifier": "all sequences of inserts and removals, all names", "why_tests_cant": "Unbounded histories with duplicates.", "anchors": ["src/lib/Node.cpp: Node::value, Node::node, Node::get, Node::insert, Node::remove_*", "src/lib/Environment.cpp"]}
{"id": "C34", "title": "Recursive queries visit everything once", "statement": "Recursive enumeration of values or nodes returns each one of the tree exactly once, and recursive search gives exactly those with the given name.", "quantifier": "all trees", "why_tests_cant": "Unbounded trees.", "anchors": ["src/lib/Node.cpp: Node::foreach_node, Node::foreach_value, Node::all_nodes, Node::all_values, Node::find_nodes, Node::find_values"]}
{"id": "C35", "title": "Positional access is checked", "statement": "Accessing an item by a position out of range throws.", "quantifier": "all nodes and all positions", "why_tests_cant": "Out of range behaviour may look harmless in tests.", "anchors": ["src/lib/Node.cpp: Node::get, Node::try_get, Node::value, Node::node"]}
{"id": "C36", "title": "Shared pointers keep their sharing", "statement": "After storing and restoring objects holding shared pointers, two pointers are the same in the result exactly when they were in the original, and the pointees are equal.", "quantifier": "all acyclic object graphs", "why_tests_cant": "Sharing patterns are unbounded.", "anchors": ["include/Srl/Resolve.hpp: Switch<shared_ptr>", "src/lib/Node.cpp: Node::insert_shared, Node::find_shared"]}
{"id": "C37", "title": "Storing twice gives the same output", "statement": "Storing the same object twice with the same tree object gives the same bytes.", "quantifier": "all objects, any number of stores", "why_tests_cant": "Depends on state kept between calls.", "anchors": ["src/lib/Tree.cpp: Tree::to_source", "src/lib/Environment.cpp"]}
{"id": "C38", "title": "A failed store leaves the tree usable", "statement": "After a store that threw, the same tree object behaves as if the store had not been attempted.", "quantifier": "all histories of operations", "why_tests_cant": "Depends on state kept between calls.", "anchors": ["src/lib/Tree.cpp: Tree::to_source", "src/lib/Environment.cpp: store_node"]}
{"id": "C39", "title": "MessagePack output conforms to the format specification", "statement": "A decoder following the MessagePack specification reads the output as the document that was written.", "quantifier": "all documents", "why_tests_cant": "All lengths and shapes; the project's own reader shares the writer's conventions.", "anchors": ["src/lib/PMsgPack.cpp: PMsgPack::write, write_str, write_bin"]}
{"id": "C40", "title": "MessagePack input conforms to the format specification", "statement": "Every document encoded by the MessagePack specification with string keys and supported types is read as specified, and bytes the specification reserves are rejected.", "quantifier": "all documents in all permitted encodings", "why_tests_cant": "All encodings.", "anchors": ["src/lib/PMsgPack.cpp: PMsgPack::read, read_str, read_bin, read_scalar"]}
{"id": "C41", "title": "Type registration", "statement": "Registering an id twice throws and leaves the first registration in force; creating by an unregistered id throws; creating by a registered id uses its own factory.", "quantifier": "all sequences of registrations", "why_tests_cant": "Unbounded histories.", "anchors": ["src/lib/Registration.cpp", "include/Srl/Registration.h"]}
{"id": "C42", "title": "Fixed-size arrays demand the right number of elements", "statement": "Restoring a fixed-size array throws unless the source has exactly its number of elements.", "quantifier": "all sizes and all sources", "why_tests_cant": "All pairs of sizes, on two code paths.", "anchors": ["include/Srl/Resolve.hpp: Switch<T[N]>, check_size"]}
{"id": "C43", "title": "Saved form is stable", "statement": "Saving a loaded document gives back exactly the bytes it was loaded from, if these were produced by saving.", "quantifier": "all documents, each binary format", "why_tests_cant": "Unbounded documents.", "anchors": ["src/lib/PSrl.cpp: PSrl::write, PSrl::read", "src/lib/PMsgPack.cpp: PMsgPack::write, PMsgPack::read"]}
{"id": "C44", "title": "Field names are written once in the Srl format", "statement": "In the Srl format the text of a field name is written at its first occurrence only; later occurrences refer to it, and the reader resolves each reference to the right name.", "quantifier": "all documents", "why_tests_cant": "Index assignment depends on the whole history.", "anchors": ["src/lib/PSrl.cpp: write_head, read_head"]}
{"id": "C45", "title": "JSON layout is irrelevant", "statement": "The compact and the indented layout of a document load to the same tree.", "quantifier": "all documents", "why_tests_cant": "Unbounded documents.", "anchors": ["src/lib/PJson.cpp: PJson::write, PJson::read"]}
{"id": "C46", "title": "Optional fields", "statement": "Restoring an optional field sets it when present and leaves it unchanged when absent, and does not disturb the other fields.", "quantifier": "all documents, all positions of the optional field", "why_tests_cant": "Presence and position combine with the partially-read state.", "anchors": ["include/Srl/Context.hpp: CtxFlags", "src/lib/Node.cpp: Node::has_value, Node::has_node, Node::consume_item"]}
{"id": "C47", "title": "Null pointers survive a round trip", "statement": "A null pointer stored and restored is null, and containers of pointers keep their length.", "quantifier": "all pointer-like types and all positions of nulls", "why_tests_cant": "Combinations of types.", "anchors": ["include/Srl/Resolve.hpp: Switch<T*>, Switch<unique_ptr>, Switch<shared_ptr>"]}
{"id": "C48", "title": "Conversion between formats", "statement": "Loading a document saved in one format, saving it in another and loading that gives the same document.", "quantifier": "all documents, all ordered pairs of the binary formats", "why_tests_cant": "Unbounded documents times pairs.", "anchors": ["src/lib/PSrl.cpp", "src/lib/PMsgPack.cpp", "src/lib/Node.cpp: Node::to_source"]}
{"id": "C49", "title": "Number formatting never overruns its buffer", "statement": "The text of every integer fits the buffer reserved for its type.", "quantifier": "every integer of every width", "why_tests_cant": "2^64 values; an overrun by one is silent.", "anchors": ["src/lib/ToolsStrConv.cpp: conv_type"]}
{"id": "C50", "title": "Restoring into character arrays", "statement": "Restoring a string into a fixed character array stores exactly that string followed by a terminator, or throws; it never writes outside the array.", "quantifier": "all strings, all encodings, all array sizes", "why_tests_cant": "Depends on the combination of source encoding, character width, string length and array size.", "anchors": ["include/Srl/Resolve.hpp: Switch<T[N]> for character types"]}
{"id": "C51", "title": "Pointers into the hash table", "statement": "A pointer returned by get, insert or upsert stays valid and keeps denoting the same entry until that entry is removed or the table cleared; different entries never share memory.", "quantifier": "all operation sequences, all hash functions, capacities and load factors", "why_tests_cant": "Growth, removal and recycling of entries interact over unbounded histories.", "anchors": ["include/Srl/Hash.hpp: HTable::redistribute, HTable::insert_hash, HTable::remove"]}
{"id": "C52", "title": "Wide strings survive a round trip", "statement": "A UTF-16 or UTF-32 string stored in any format and restored into a string of the same type is the same sequence of code units; restoring into a string of another width gives the same characters.", "quantifier": "all strings of valid code units, all pairs of encodings", "why_tests_cant": "1.1 million characters with lengths 1 to 4; the output buffer is enlarged depending on the mixture.", "anchors": ["src/lib/ToolsStrConv.cpp: conv_charset", "include/Srl/Resolve.hpp: Switch<basic_string<T>>", "src/lib/Environment.cpp: conv_string, write_conv"]}
{"id": "C53", "title": "Storing character arrays", "statement": "Storing a fixed character array stores the characters before the first terminator, or the whole array if there is none, and reads nothing outside the array.", "quantifier": "all contents, all array sizes, all character types", "why_tests_cant": "A read past the array is silent unless a tool watches.", "anchors": ["include/Srl/Resolve.hpp: Switch<T[N]> for character types"]}
{"id": "C54", "title": "Pointers stay usable when restoring throws", "statement": "When restoring into an object throws, every raw pointer of the object is null or points to an object, so the object can be destroyed or restored again.", "quantifier": "all objects and all inputs that make restoring throw", "why_tests_cant": "Use after delete is silent; it needs the combination of an existing object and an input that fails at a certain place.", "anchors": ["include/Srl/Resolve.hpp: Switch<T*>, Switch of polymorphic pointers", "include/Srl/Registration.h: Registrations::create"]}
{"id": "C55", "title": "Documents cannot confuse the types of shared objects", "statement": "Restoring shared pointers from any document either throws or gives pointers that lead to objects of the pointers' own class.", "quantifier": "all documents and all types with shared pointers", "why_tests_cant": "The document is untrusted; the failing ones use one key for pointers of two classes, and the effect is silent memory corruption.", "anchors": ["include/Srl/Resolve.hpp: Switch<shared_ptr>::Paste", "src/lib/Node.cpp: Node::find_shared"]}
{"id": "C56", "title": "Restoring an object from untrusted bytes is safe", "statement": "Restoring an object of any supported type from any bytes, in any of the three formats, directly from the source or from a tree loaded before, either gives an object or throws: it ends, reads nothing outside the source and performs no undefined conversion, however the document is damaged and whatever its types and names are.", "quantifier": "all byte strings, all types built from numbers, booleans, strings, binaries, sequences, arrays, sets, maps, classes and pointers, all previous contents of the object, all three formats", "why_tests_cant": "Unit tests restore well-formed documents of the right type; documents made for the purpose can combine any token with any type at any depth, and undefined behaviour need not show.", "anchors": ["include/Srl/Tree.hpp:133-158", "include/Srl/Node.hpp:105-130", "src/lib/Node.cpp:246-525", "include/Srl/Resolve.hpp:299-340", "include/Srl/TpTools.h:106-184"]}
{"id": "C57", "title": "Storing and saving leave the tree as it was", "statement": "A store that succeeds, and saving the tree, change nothing that later calls on the same tree object show: all later calls give what they would have given without it, and a document can be loaded at any time with the same result as with a new tree object.", "quantifier": "all sequences of calls before and after, all objects, all documents, all formats", "why_tests_cant": "The state is hidden (flag, pointer to the parser, table of shared objects, root node); tests check single sequences of calls.", "anchors": ["src/lib/Tree.cpp:52-75", "src/lib/Environment.cpp:86-122,220-226", "include/Srl/Tree.hpp:48-115", "src/lib/Node.cpp:146-164"]}
{"id": "C58", "title": "A name need only be valid while it is passed", "statement": "A field name given to a call that stores a value need only be valid during this call: what is written afterwards does not depend on what happens to its memory, and the document read back has the names as they were passed.", "quantifier": "all sequences of calls that store fields, all names in all encodings, all histories of the memory they are in", "why_tests_cant": "Reading memory that was given back is silent, and it takes a name that occurs again, or a name longer than the ones before, for it to happen.", "anchors": ["src/lib/PSrl.cpp: write_head", "src/lib/PSrl.h: hashed_strings", "src/lib/Environment.cpp: write_conv", "include/Srl/Blocks.h: MemBlock::operator=="]}
{"id": "C59", "title": "Doubles survive as text", "statement": "The text the library writes for a finite double stands for a number nearer to it than to any other double, so reading it with a correctly rounding strtod gives the same double, bit for bit, and different doubles have different texts. Formatting any double, NaN and infinities included, writes at most the 24 bytes there is room for.", "quantifier": "all 2^64 doubles", "why_tests_cant": "There are 2^64 doubles; the digits come from rounded 64-bit products with a table of 87 powers of ten, and errors of one unit show for rare inputs only.", "anchors": ["src/lib/fpconv/fpconv.c: fpconv_dtoa, grisu2, generate_digits, emit_digits", "src/lib/ToolsStrConv.cpp:132-147"]}
{"id": "C60", "title": "Numbers unwrapped as float or double are the nearest", "statement": "Unwrapping a stored number as float or double gives the float or double nearest to it, ties to even, so exactly the number whenever the type has it; unwrapping a number outside of the range of float as float throws, and NaN, infinities and the sign of zero are kept. Nothing undefined happens for any stored value.", "quantifier": "all stored integers of all eight types, all 2^32 floats and 2^64 doubles", "why_tests_cant": "Rounding errors show for single integers around 2^24 and 2^53 and doubles between floats only; out of range conversions need not be noticed.", "anchors": ["include/Srl/TpTools.h: try_apply, overflows, apply_fnc", "include/Srl/Resolve.hpp: Switch::Paste of numbers", "include/Srl/Value.hpp: Value(double)"]}
{"id": "C61", "title": "Restored objects are objects of their type", "statement": "Whatever the document, in whatever format, an object that restoring gives is one the program itself could have made: integers in the range of their member, arrays with as many elements as declared, maps and sets in ascending order without repeated keys; at every level of nesting. Otherwise restoring throws.", "quantifier": "all documents, all types built from numbers, strings, binaries, sequences, arrays, sets, maps, classes and pointers, all previous contents", "why_tests_cant": "Untrusted documents can contain any value at any place; an element out of order in a map is not noticed when it is restored, but lookups fail later.", "anchors": ["include/Srl/Resolve.hpp: Switch::Paste", "include/Srl/TpTools.h: apply_type", "src/lib/Node.cpp: consume_node, consume_value"]}
{"id": "C62", "title": "Maps and sets have the first entry for each key", "statement": "Restoring a map or set gives exactly the entries of the document of which no earlier one has the same key, whatever was in the map before; so the order of entries with different keys in a document does not matter, and restoring succeeds exactly if all entries, also the repeated ones, could be restored.", "quantifier": "all documents, all formats, all key and value types, all previous contents", "why_tests_cant": "Repeated keys and unordered entries do not occur in documents the library writes from maps, so round trip tests do not meet them.", "anchors": ["include/Srl/Resolve.hpp:486-568"]}
{"id": "C63", "title": "Vectors stored as binary data come back", "statement": "A vector of numbers wrapped to be stored as binary data is restored with the same elements, whatever the vector restored into held before; restoring a wrapped vector from any other value throws or gives elements made of the bytes of that value, and writes nothing outside of the vector.", "quantifier": "all vectors, all element sizes, all binary values and base64 texts, all previous contents and capacities", "why_tests_cant": "Round trips only meet sizes that are multiples of the size of the elements; writing a few bytes behind a vector is usually not noticed.", "anchors": ["include/Srl/BitWrap.h: VecWrap", "include/Srl/Resolve.hpp:838-899"]}
{"id": "C64", "title": "Containers come back whatever the order they are written in", "statement": "A table, unordered set or unordered map that is stored, in whatever order it enumerates its entries, alone or nested in other objects, is restored with the same entries, whatever was in the container restored into; so an object with such containers comes back equal although two equal objects may be written differently.", "quantifier": "all objects of all types with tables, sets and maps at any level, all orders of enumeration, all three formats", "why_tests_cant": "The order of enumeration depends on the hash function, the number of buckets and the history of the container; tests meet one order.", "anchors": ["include/Srl/Resolve.hpp:486-568,918-972", "include/Srl/Hash.hpp:146-196"]}
{"id": "C65", "title": "Any of the packed items can be unpacked", "statement": "Of the items packed under names, unpacking any of them in any order gives each as it was packed, whatever the variables held before; asking also for a name that was not packed throws. Likewise a class restores from what an earlier version with more members, or members in another order, stored.", "quantifier": "all lists of items of all types, all choices and orders, all three formats", "why_tests_cant": "The items not asked for in order are kept aside while reading; which ones depends on the choice and the kinds of items.", "anchors": ["include/Srl/Tree.hpp:48-79", "include/Srl/Node.hpp:13-25,92-137", "src/lib/Node.cpp:246-400"]}
{"id": "C66", "title": "Weak pointers come back", "statement": "A weak pointer that is stored with an object is restored leading to the copy of the object it led to, an expired one comes back expired; when the tree is gone it is still valid exactly if the object it leads to is owned by shared pointers of what was stored. In particular children with weak pointers to the parents that own them come back.", "quantifier": "all objects and all graphs of objects behind their shared and weak pointers, all three formats", "why_tests_cant": "The tree keeps restored objects alive, so a pointer that dies with it looks valid in a test; the effect depends on the whole graph and on which pointer is stored first.", "anchors": ["include/Srl/Resolve.hpp:760-836", "src/lib/Node.cpp:537-559", "src/lib/Environment.cpp:220-226"]}
{"id": "C67", "title": "Storing writes what inserting adds", "statement": "Whatever is inserted - values, nested scopes given as functions, lists, shared pointers, copies of nodes - the document written when it is stored or packed directly loads as the same tree as the document obtained by inserting it into a tree and saving the tree. What inserting rejects is rejected when storing.", "quantifier": "all sequences of insertions, nested in each other in any way, all three formats", "why_tests_cant": "Every kind of insertion has one branch for trees and one for direct output, which can disagree in any nesting; tests exercise few combinations and mostly one of the two.", "anchors": ["include/Srl/Node.hpp:12-66", "src/lib/Node.cpp:146-164", "src/lib/Environment.cpp:74-148", "include/Srl/Tree.hpp:48-69"]}
{"id": "C68", "title": "Trees own their content", "statement": "What is inserted, loaded or copied into a tree stays as it was at the time of the call: the program may overwrite or give up the buffers it passed, read other documents with the same parser, change or destroy the trees it copied nodes and values from, and move the tree. A node held by value stays usable until its tree is cleared, loaded again or destroyed.", "quantifier": "all programs that make any sequence of calls on any number of trees, nodes and buffers", "why_tests_cant": "The failing programs read memory that was given up, which need not show; it depends on the combination of the length of data, on which tree it comes from and on what happens to it later.", "anchors": ["src/lib/Environment.cpp:50-143", "include/Srl/Blocks.h:25-67", "src/lib/Tree.cpp:8-50", "src/lib/Node.cpp:246-277", "include/Srl/Node.h:25"]}
{"id": "C69", "title": "Hash tables can be moved", "statement": "Moving a hash table, by construction or assignment, hands all its entries over: the target answers every later operation as the source would have, the source is empty and can be used again, cleared or destroyed without effect on the target.", "quantifier": "all programs that make any sequence of operations on any number of tables, all hash functions, load factors and numbers of buckets", "why_tests_cant": "Reading memory of a heap that was given up need not show; it takes a move followed by the end of the source, which in a test is the end of the program.", "anchors": ["include/Srl/Hash.hpp:11-29,48-89,160-227,370-447", "include/Srl/Hash.h:47-57,107-117"]}
{"id": "C70", "title": "Unions give what was stored under their name", "statement": "A union got from a tree or node, or unpacked from a document, stands for the item stored under the name asked for: unwrapping it with the type that was stored gives an equal object, getting names from it gives unions for the parts, other names and other kinds of types throw. It makes no difference in which order unions and objects are unpacked.", "quantifier": "all types whose objects can be stored by name, all objects, all paths of names, all lists of items to unpack, all three formats", "why_tests_cant": "Values and scopes are looked up separately, while reading and after it in opposite order, and a union makes the parser run to the end of the scope; what goes wrong depends on the order of the names in the document relative to the calls.", "anchors": ["include/Srl/Union.hpp:43-191", "src/lib/Node.cpp:198-231,279-327,514-535", "include/Srl/Resolve.hpp:261-273", "include/Srl/Tree.hpp:71-79", "src/lib/Tree.cpp:93-103"]}
{"id": "C71", "title": "A document that was not delivered is reported", "statement": "Storing to a stream either delivers the whole document or throws. If the stream fails somewhere, what it has received is the beginning of the document. Streams one cannot move in, like pipes, receive the same document as others.", "quantifier": "all sequences of output operations, all previous contents, all streams: each operation on them may fail, after any number of bytes, with or without an exception", "why_tests_cant": "Tests write to streams in memory, which never fail; failures depend on the size of the document relative to the buffer and on the moment.", "anchors": ["src/lib/Out.cpp:8-48", "include/Srl/Out.hpp:9-67", "include/Srl/Out.h:14-60"]}
{"id": "C72", "title": "Restored Srl::Strings show the text that was stored", "statement": "A member of type Srl::String (a pointer with a size) that was restored by Tree::restore, or pasted from a loaded tree, shows the text stored under its name for as long as source and tree are kept.", "quantifier": "all documents, all orders of members, all lengths of texts, whatever happens to other memory later", "why_tests_cant": "What a dangling pointer shows is a matter of chance; tests that look at the text at once, or have members in the order of the document, see the right text.", "anchors": ["include/Srl/Resolve.hpp:245-259", "src/lib/Node.cpp:373-413", "include/Srl/Node.hpp:98-123", "include/Srl/Tree.hpp:71-79"]}
{"id": "C73", "title": "A tree can be used for one document after the other", "statement": "One Tree object can read any number of documents; each call of load_source and unpack gives what was stored whatever was done with the tree before, failed calls included. Items of one document can be unpacked in several calls (unpack, then root().paste), and those of a loaded tree as often as one likes.", "quantifier": "all sequences of such calls, all documents, whatever failed calls leave in the tree, all formats", "why_tests_cant": "What calls find depends on the whole history of the tree; a pointer to a parser that is gone often still works by chance.", "anchors": ["include/Srl/Tree.hpp:71-79", "include/Srl/Tree.hpp:99-103", "src/lib/Tree.cpp:30-50", "src/lib/Tree.cpp:71-91", "include/Srl/Node.hpp:98-137"]}
{"id": "C74", "title": "Objects loaded into a tree come back", "statement": "tree.load_object(o) makes the tree hold exactly o, whatever it held before: root().paste or unwrap gives o, and the bytes of to_source restore to o in every format, with the document that store(o) would write up to the order of values and nodes.", "quantifier": "all types, all objects, all earlier uses of the tree, all formats, new and used parser objects", "why_tests_cant": "Tests load one or two objects into new trees and never restore a saved tree; they cannot cover every type, every state of the tree and every format.", "anchors": ["include/Srl/Tree.hpp:15-42", "include/Srl/Tree.hpp:159-164", "src/lib/Tree.cpp:105-115", "include/Srl/Node.hpp:36-40"]}
{"id": "C75", "title": "Heaps give back all memory exactly once", "statement": "Heaps may be created, used, cleared, moved from, moved to (also to themselves) and destroyed in any order: no pointer that is not valid is followed, no array is given back twice, and after the last heap nothing is left. Blocks of all heaps never overlap and keep their contents when their heap is moved or another one is used, moved or destroyed.", "quantifier": "all sequences of operations on any number of heaps, all sizes, also if the system refuses memory at any time", "why_tests_cant": "Leaks, double frees and pointers left behind depend on the order of moves and on how the lists of a heap are linked at that time; they rarely show in a test.", "anchors": ["include/Srl/Heap.h:36-56", "src/lib/Heap.cpp:57-131", "src/lib/Heap.cpp:173-287"]}
{"id": "C76", "title": "A heap survives a refused allocation", "statement": "If the system refuses memory, Heap::get_mem throws and the heap can be used further: blocks obtained before keep their contents, blocks obtained later do not overlap others.", "quantifier": "all heaps, all sizes, all sequences of operations before and after", "why_tests_cant": "Memory has to run out at a certain allocation; overlapping blocks then only show when both are written to.", "anchors": ["src/lib/Heap.cpp:186-215", "include/Srl/Heap.hpp:8-26"]}
{"id": "C77", "title": "Documents cannot nest restoring without limit", "statement": "Restoring an object nests calls only as deep as its types and the documented limit of 128 scopes demand, however deep the document is nested: deeper documents throw and cannot exhaust the stack.", "quantifier": "all documents and all types, also those with shared pointers to their own class; restored while reading or from a loaded tree", "why_tests_cant": "A test can show one document that is refused or one that is accepted, not that no document exceeds the stack.", "anchors": ["include/Srl/Resolve.hpp:360-422,468-530,784-816", "src/lib/Node.cpp:246-277", "include/Srl/Node.hpp:105-130"]}
{"id": "C78", "title": "What is saved as JSON is JSON", "statement": "Every tree is saved, compact or indented, as a text that follows the grammar of RFC 8259 and stands for that tree, so that any other conforming reader understands it: integers exactly, floating point numbers such that they can be told from all others, strings and names with their escapes, binary data as base64 text, members in order.", "quantifier": "all trees, names, values of every type, both layouts", "why_tests_cant": "Tests read back what they write with the same library; a text that only this library understands passes them.", "anchors": ["src/lib/PJson.cpp: PJson::write, insert_spacing, insert_in_quotes", "src/lib/ToolsStrConv.cpp: conv_type, fpconv", "src/lib/fpconv: fpconv_dtoa"]}
{"id": "C79", "title": "JSON is read as what it stands for", "statement": "Every text that follows the grammar of RFC 8259, whoever wrote it and with whatever blanks, is loaded as the tree it stands for: all members in order, names and strings with escapes resolved, integers exact, other numbers rounded to the nearest double; what follows the text stays unread.", "quantifier": "all JSON texts with at most 128 nested scopes below the root; deeper ones throw", "why_tests_cant": "The grammar is infinite; tests try single documents, mostly ones this library wrote itself.", "anchors": ["src/lib/PJson.cpp: PJson::read, process_char, process_quote, process_literal, read_unescape", "src/lib/ToolsStrConv.cpp: str_to_type, str_to_int"]}
{"id": "C80", "title": "Objects are restored from any JSON that describes them", "statement": "A JSON text, whoever wrote it, that describes an object of a type is restored as that object: members are found by name in any order, further members are skipped, optional members that are missing keep what they were, numbers may be written in any notation, blanks may stand anywhere; whether the document is loaded first or the object is restored while reading.", "quantifier": "all types, objects and JSON texts that describe an object of the type", "why_tests_cant": "Tests restore what the library itself saved, with the members in the order and the notation in which it writes them.", "anchors": ["src/lib/PJson.cpp: PJson::read", "include/Srl/Resolve.hpp: Switch::Paste", "include/Srl/Context.hpp: Context::paste", "src/lib/Node.cpp: Node::has_node, Node::has_value, Node::consume_node"]}
{"id": "C81", "title": "Later versions of a class read what earlier ones stored", "statement": "An object stored by one version of a program is restored by a later one in which classes have lost members, have new optional members or have them in another order, numbers are wider, arrays have become sequences and objects are owned by pointers: members of the same name get the stored values, new ones keep what they were, and nothing else changes.", "quantifier": "all pairs of types related in this way, all objects of the earlier type, all objects restored into, all formats, loaded first or restored while reading", "why_tests_cant": "There are infinitely many pairs of versions; tests have one version of each class and restore what it stored itself.", "anchors": ["include/Srl/Resolve.hpp: Switch::Paste", "include/Srl/Context.hpp: Context::paste", "src/lib/Node.cpp: Node::has_node, Node::has_value, Node::consume_node, Node::consume_scope"]}
{"id": "C82", "title": "Objects are restored from any MessagePack that describes them", "statement": "A document in MessagePack, whoever encoded it, that describes an object of a type is restored as that object: members are found by name in any order, further members are skipped, optional members that are missing keep what they were, integers and lengths may be encoded in any of the formats for them, numbers may be integers or floats of either size if the type holds them exactly; loaded first or restored while reading, from memory or a stream.", "quantifier": "all types, objects, documents that describe an object of the type, and all their encodings", "why_tests_cant": "Tests restore what the library itself saved, with the members in its order and the formats it chooses; other encoders choose other ones.", "anchors": ["src/lib/PMsgPack.cpp: PMsgPack::read", "include/Srl/Resolve.hpp: Switch::Paste", "include/Srl/Context.hpp: Context::paste", "src/lib/Node.cpp: Node::has_node, Node::has_value, Node::consume_node"]}
{"id": "C83", "title": "Comments in JSON texts are skipped", "statement": "A JSON text with comments between its tokens, from // to the end of the line or from /* to the next */, is read as the tree it stands for without them and restores the same objects, from memory or a stream.", "quantifier": "all JSON texts, all comments and places for them, all types", "why_tests_cant": "Comments can be anywhere, contain anything and be next to each other; there are no tests with comments, and wrong ends of comments change what is read without an error.", "anchors": ["src/lib/PJson.cpp: skip_comment", "src/lib/PJson.cpp: PJson::read", "src/lib/PJson.cpp: process_literal", "include/Srl/In.hpp: In::move_until"]}
{"id": "C84", "title": "Documents cannot make the library hold much more than they have bytes", "statement": "Whatever the bytes of a document, the tree it is loaded into and the objects restored from it hold at most a multiple of the number of its bytes, where the multiple depends on the type only; so do the buffers of the parser.", "quantifier": "all byte sequences, all formats, all types, all objects restored into", "why_tests_cant": "A few bytes that announce or refer to much are what attackers send; tests have well-formed documents of moderate size.", "anchors": ["src/lib/Node.cpp: Node::read_source", "src/lib/PSrl.cpp: PSrl::read", "src/lib/PMsgPack.cpp: PMsgPack::read", "src/lib/PJson.cpp: PJson::read", "include/Srl/In.hpp: In::read_substitue", "include/Srl/Resolve.hpp: Switch<HTable>::Paste"]}
{"id": "C85", "title": "Texts that are not JSON are rejected", "statement": "What is loaded of a text is JSON, with comments wherever white space is allowed; loading any other text ends with an exception.", "quantifier": "all byte sequences, all strtod", "why_tests_cant": "There is no end of texts that are not JSON; tests try a few.", "anchors": ["src/lib/PJson.cpp: PJson::read", "src/lib/PJson.cpp: skip_comment", "src/lib/PJson.cpp: PJson::process_quote", "src/lib/PJson.cpp: PJson::process_char", "src/lib/PJson.cpp: PJson::process_literal", "src/lib/PJson.cpp: PJson::process_bracket", "src/lib/ToolsStrConv.cpp: Tools::str_to_type"]}
{"id": "C86", "title": "Bytes that are not MessagePack are rejected", "statement": "What is loaded of a sequence of bytes as MessagePack is MessagePack (with strings as keys); loading anything else ends with an exception.", "quantifier": "all byte sequences", "why_tests_cant": "There is no end of byte sequences that are not MessagePack; tests try a few.", "anchors": ["src/lib/PMsgPack.cpp: PMsgPack::read", "src/lib/PMsgPack.cpp: prefix_is_str", "src/lib/PMsgPack.cpp: prefix_is_scalar", "src/lib/PMsgPack.cpp: prefix_is_bin", "src/lib/PMsgPack.cpp: prefix_is_scope", "src/lib/PMsgPack.cpp: read_name"]}
{"id": "C87", "title": "Documents in a stream can be read one after the other", "statement": "Loading a document from a stream leaves the stream behind the document, so that documents in a stream that follow each other are loaded by as many calls of load_source.", "quantifier": "all sequences of documents, all formats, all trees that have read other streams before", "why_tests_cant": "How much is read ahead depends on lengths and on where the buffer is refilled; a test with one document in a stream sees none of it.", "anchors": ["src/lib/In.cpp: In::try_fetch_data", "src/lib/In.cpp: In::set", "include/Srl/In.hpp: In::peek", "include/Srl/Tree.hpp: Tree::load_source"]}
{"id": "C88", "title": "What was loaded can be saved again, in any format", "statement": "Whatever bytes below 4 GiB were loaded, whoever made them, the document can be saved in each of the formats without an error, is the same document when it is loaded again, and is then saved as the same bytes.", "quantifier": "all accepted byte sequences in the three formats, all three formats to save in", "why_tests_cant": "Documents from elsewhere need not be in the form the library writes; which values, names and nesting a reader lets through that a writer cannot handle is a question about all inputs.", "anchors": ["include/Srl/Tree.hpp: Tree::load_source", "include/Srl/Tree.hpp: Tree::to_source", "src/lib/PSrl.cpp: PSrl::write", "src/lib/PMsgPack.cpp: PMsgPack::write", "src/lib/PJson.cpp: PJson::write"]}
{"id": "C89", "title": "Only what could have been saved is loaded in the Srl format", "statement": "The bytes of what is loaded in the Srl format are those it is saved as; loading anything else ends with an exception. So a damaged document is noticed or is another document, and no two sequences of bytes are the same document.", "quantifier": "all byte sequences", "why_tests_cant": "The format has no description besides the code, and tests try documents that were saved; how many other byte sequences are taken for documents is a question about all of them.", "anchors": ["src/lib/PSrl.cpp: PSrl::read", "src/lib/PSrl.cpp: PSrl::read_num", "src/lib/PSrl.cpp: PSrl::read_head", "src/lib/PSrl.cpp: decode_integer"]}
{"id": "C90", "title": "Loading takes time in proportion to the document", "statement": "What is done for the names of a document while it is loaded (hashing and copying them, searching and growing the table they are kept in) is at most a constant multiple of the number of bytes of the document, whoever made it.", "quantifier": "all byte sequences that are loaded, of each format", "why_tests_cant": "Tests measure documents with ordinary names. Names that all have the same hash have to be searched for, and that the work stays within a bound for all documents is a statement about how the table grows.", "anchors": ["src/lib/Environment.cpp: Environment::store_string", "include/Srl/Hash.hpp: HTable::get", "include/Srl/Hash.hpp: HTable::insert_hash", "include/Srl/Hash.hpp: HTable::redistribute", "src/lib/Hash.cpp: fnv1a"]}
{"id": "C91", "title": "Objects are restored from any document in the Srl format that describes them", "statement": "A document in the Srl format, whoever made it, that describes an object of a type is restored as that object: members are found by name in any order, whether a name is given or referred to, further members are skipped, optional members that are missing keep what they were, numbers may take more bytes than they need and may be integers or floats of either size if the type holds them exactly; loaded first or restored while reading, from memory or a stream.", "quantifier": "all types, objects, documents that are accepted and describe an object of the type, and all bytes that follow", "why_tests_cant": "Tests restore what the library itself saved, with the members in its order; documents of other versions of a class or of other programs have other orders, further members and other encodings of the same numbers.", "anchors": ["src/lib/PSrl.cpp: PSrl::read", "include/Srl/Resolve.hpp: Switch::Paste", "include/Srl/Context.hpp: Context::paste", "src/lib/Node.cpp: Node::has_node, Node::has_value, Node::consume_node"]}
{"id": "C92", "title": "Trees and parsers that were used before work as fast as new ones", "statement": "Loading a document into a tree that was used before, or saving a tree with a parser that was used before, takes at most a multiple of what it takes with a new tree or parser: what is done for the names depends on the document, not on the documents before it.", "quantifier": "all documents and trees, and all sequences of documents loaded or trees saved before, however large", "why_tests_cant": "Tests compare results, not work, and do so with a few small documents; a tree or parser that is kept for a whole program first meets one large document and then works on small ones for hours.", "anchors": ["include/Srl/Hash.hpp: HTable::clear, HTable::redistribute, HTable::alloc_table", "src/lib/Tree.cpp: Tree::prologue_in", "src/lib/Environment.cpp: Environment::clear, Environment::set_output", "src/lib/PSrl.cpp: PSrl::clear, PSrl::write_head"]}
{"id": "C93", "title": "Restoring an object takes time in proportion to the document", "statement": "Restoring an object, whether from a loaded tree or while the document is read, takes at most a number of steps for each byte of the document which depends on the type alone: whatever the document holds, in whatever order the members of classes are in it, and also if restoring ends with an exception.", "quantifier": "all types, all objects that are overwritten, all documents in all three formats, and while reading all sequences of bytes", "why_tests_cant": "Members are looked up by name, one after the other, in lists of everything the document has; tests restore small documents with the members in the order they were saved, where each lookup ends at once.", "anchors": ["include/Srl/Resolve.hpp: Switch::Paste of all kinds", "include/Srl/Context.hpp: Context::paste", "include/Srl/Node.hpp: Node::paste_field", "src/lib/Node.cpp: find_link, get_link_at_index, Node::value, Node::node, Node::has_node, Node::has_value, Node::consume_node, Node::consume_value, Node::consume_scope"]}
{"id": "C94", "title": "What is saved is not much larger than what it was saved from", "statement": "A tree saved in any format takes at most a fixed number of bytes for each of its values and nodes and each byte of its strings, binaries and names, where names count once in the Srl format. A document that is loaded and saved again, in the same or another format, takes at most a fixed multiple of its bytes.", "quantifier": "all trees, all documents in all three formats that can be loaded, every way to write floating-point numbers in at most 24 bytes", "why_tests_cant": "Tests compare the output for a few trees; that no tree makes it larger by more than a fixed factor is a statement about all of them, and what escapes, padding, indentation, tables of names and heads of scopes add depends on the shape of the tree.", "anchors": ["src/lib/PMsgPack.cpp: PMsgPack::write, PMsgPack::write_scope", "src/lib/PSrl.cpp: PSrl::write, PSrl::write_head", "src/lib/PJson.cpp: PJson::write, PJson::insert_spacing", "src/lib/Tree.cpp: Tree::to_source"]}
{"id": "C95", "title": "Shared pointers are looked up in time in proportion to them", "statement": "Restoring a sequence of shared pointers from a document takes for their keys a number of steps in the table of shared objects that is at most a fixed multiple of the number of pointers plus a fixed number, whatever keys the document has.", "quantifier": "all sequences of shared pointers to a class, all keys a document may have, all numbers of pointers", "why_tests_cant": "Tests restore what was stored, where keys are numbered from 0 and spread by themselves; that no document has keys that gather in one place is a statement about all choices of keys and all sizes of the table as it grows.", "anchors": ["src/lib/Node.cpp: Node::find_shared", "include/Srl/Hash.h: HashSrl, HTable", "include/Srl/Hash.hpp: HTable::get_bucket, HTable::insert_hash, HTable::redistribute", "include/Srl/Environment.h: Environment::shared_table_restore"]}
{"id": "C96", "title": "Shared pointers are stored in time in proportion to them", "statement": "Storing objects with shared pointers takes for their addresses a number of steps in the table of stored objects that is at most a fixed multiple of the number of pointers plus a fixed number, wherever the objects lie in memory.", "quantifier": "all types and graphs of objects with shared pointers, all addresses below 2^47, all numbers of pointers", "why_tests_cant": "Tests store a few small objects wherever the allocator puts them; how addresses gather in places depends on the sizes of objects, on the order in which they are met and on each capacity the table goes through.", "anchors": ["src/lib/Node.cpp: Node::insert_shared", "include/Srl/Environment.h: HashSrl<const void*>, Environment::shared_table_store", "include/Srl/Hash.hpp: HTable::get_bucket, HTable::insert_hash, HTable::redistribute", "include/Srl/Resolve.hpp: Switch (shared pointers)"]}
