{"id": "C01", "title": "Varint round trip", "statement": "Decoding the varint that encodes n yields n and reports exactly the number of bytes that were written, whatever bytes follow it in the buffer.", "quantifier": "every 64-bit n, every buffer prefix and suffix, builds with and without assertions (buffer < 2^31 bytes when assertions are on)", "why_tests_cant": "2^64 values times all surrounding buffers", "anchors": ["include/bridge/varint.h: varint_encode, varint_decode"]}
{"id": "C02", "title": "Varint length is minimal and agrees with the length table", "statement": "The encoding of n has exactly varint_encoding_length(n) bytes, between 1 and 10 (at most 5 for a 32-bit length), every byte but the last has its top bit set and no shorter base-128 encoding of n exists.", "quantifier": "every 64-bit n", "why_tests_cant": "2^64 values; boundaries at every power of 128", "anchors": ["include/bridge/varint.h: varint_encode, varint_encoding_length, N1..N9"]}
{"id": "C03", "title": "Varint streams are uniquely decodable", "statement": "Writing any sequence of lengths one after another and reading the same number of lengths back returns that sequence and stops exactly at the end; two different sequences of equal length never give the same bytes.", "quantifier": "every list of 32-bit lengths and every buffer around it", "why_tests_cant": "unbounded sequences", "anchors": ["include/bridge/serialize.h: seriLength", "include/bridge/parse.h: parseLength"]}
{"id": "C04", "title": "Varint encoding depends on the signedness of char", "statement": "The varint writer is correct exactly when plain char is signed. With unsigned char (the default ABI on ARM Linux) every n >= 256 whose bit 7 is clear is written as one byte, so it cannot be read back.", "quantifier": "every 64-bit n on platforms with unsigned char", "why_tests_cant": "tests run on one platform", "anchors": ["include/bridge/varint.h: MSB, MSBALL, varint_encode"]}
{"id": "C05", "title": "Reading a length never runs off the end silently", "statement": "Reading a varint at any position of an arbitrary buffer either returns the value of a complete LEB128 number that lies inside the buffer and moves over exactly its bytes, or raises an exception, or (assertion builds) aborts; the only undefined behaviour on a NUL-terminated buffer is a number whose first ten bytes all have the top bit set. A complete length of k bytes with m bytes from its start to the end of the buffer is read by every build without assertions; an assertion build reads it exactly if k = 1 or k <= m mod 2^32 < 2^31, and aborts otherwise (the remaining size is narrowed to int).", "quantifier": "every byte buffer, every start position", "why_tests_cant": "all malformed buffers", "anchors": ["include/bridge/parse.h: parseLength", "include/bridge/varint.h: varint_decode", "include/bridge/inner.h: InnerWrapper"]}
{"id": "C06", "title": "Numbers are big-endian on the wire on every host", "statement": "int32/uint32/int64/uint64/float/double values are written most significant byte first on little- and big-endian hosts alike, and a document written on a host of one endianness yields the same values when parsed on a host of the other.", "quantifier": "every 32/64-bit pattern, both host endiannesses for writer and reader", "why_tests_cant": "tests run on one host and sample values", "anchors": ["include/bridge/util.h: Endian, flipByByte", "include/bridge/serialize.h: BRIDGE_SERI", "include/bridge/parse.h: BRIDGE_PARSE"]}
{"id": "C07", "title": "Serialize then Parse returns the same document (default mode)", "statement": "For any object tree made of valid values, Parse(Serialize(t)) succeeds and returns the same tree: same types, same scalar values, arrays in the same order, maps with the same entries (in reversed iteration order).", "quantifier": "every object tree whose serialized form is shorter than 4 GiB (2 GiB with assertions on)", "why_tests_cant": "infinitely many trees, unbounded depth and width", "anchors": ["include/bridge/object.h: SerializeNormal, NormalScheduler, Map::valueSeri, Map::valueParse, Array::valueSeri, Array::valueParse, Data::valueSeri, Data::valueParse"]}
{"id": "C08", "title": "Dictionary encoding is transparent", "statement": "Serialize<REPLACE> followed by Parse returns the same document that Serialize<NORMAL> followed by Parse returns, whatever strings are shared or repeated and whatever order the hash tables iterate in.", "quantifier": "every object tree, every hash-table iteration order", "why_tests_cant": "all sharing patterns, all hash seeds and library versions", "anchors": ["include/bridge/object.h: SerializeReplace, seri_key, parse_key", "include/bridge/string_map.h: StringMap"]}
{"id": "C09", "title": "In-situ parse shows the same document", "statement": "Parsing with parse_ref = true returns the same document (types, values, order) as parsing with parse_ref = false, provided it holds no custom-typed value.", "quantifier": "every object tree without custom values, NORMAL and REPLACE encodings", "why_tests_cant": "infinitely many trees", "anchors": ["include/bridge/object.h: DataView::valueParse, MapView::valueParse, BridgePool::object_factory"]}
{"id": "C10", "title": "In-situ strings point into the caller's buffer", "statement": "Every string, byte array and key of a document parsed in situ is a view of the caller's content buffer, inside its bounds, showing exactly the stored bytes; a document parsed without parse_ref holds no view of the buffer at all. The same holds of every content that Parse accepts, whoever wrote it (views may then also show the terminator of the buffer).", "quantifier": "every tree, both parsers; every accepted content", "why_tests_cant": "pointer ranges for all documents", "anchors": ["include/bridge/object.h: DataView::valueParse, parse_key, MapView::Insert", "include/bridge/string_map.h: StringMap::Construct, GetStr"]}
{"id": "C11", "title": "In-situ parse of a custom value raises an exception", "statement": "Parsing in situ any document that contains a custom-typed value raises std::runtime_error and never returns a wrong value.", "quantifier": "every object tree containing at least one custom value", "why_tests_cant": "infinitely many trees and positions", "anchors": ["include/bridge/parse.h: parseData(bridge_view_variant)", "include/bridge/object.h: DataView::valueParse"]}
{"id": "C12", "title": "Parallel parse returns the same document", "statement": "Parse with SchedulerType::Coroutine returns the same document as the normal parse (maps as sets of entries), for every document produced by Serialize and any number of workers.", "quantifier": "every object tree, every block size, NORMAL and REPLACE, owning and in-situ", "why_tests_cant": "documents over 10 MiB with every nesting of split containers", "anchors": ["include/bridge/object.h: CoroutineScheduler, ParseMap, ParseArray, ParseArrayBlock, ParseMapBlock, ParseMapViewBlock, Merge"]}
{"id": "C13", "title": "Parallel parse does not depend on the schedule", "statement": "The result of a parallel parse is the same whatever order its block tasks are executed and completed in.", "quantifier": "every completion order of the block tasks", "why_tests_cant": "exponentially many interleavings", "anchors": ["include/bridge/object.h: ParseArray, ParseMap (collectAllPara)", "include/bridge/async_executor/executor.h"]}
{"id": "C14", "title": "Split blocks partition a container exactly", "statement": "The block sizes recorded for a container add up to the bytes of its children, every recorded block ends on a child boundary, all but the last reach the block threshold, none is empty, and a container is recorded exactly when its children take at least the threshold; recorded ids are distinct.", "quantifier": "every container in every tree below 4 GiB, every block threshold", "why_tests_cant": "needs documents of many megabytes in every shape", "anchors": ["include/bridge/object.h: Array::valueSeri, Map::valueSeri, register_split_info", "include/bridge/split_info.h"]}
{"id": "C15", "title": "Round trip preserves every access path", "statement": "For a tree without duplicate keys inside one map, every wrapper path (any chain of keys and indices) gives the same emptiness, type, size and scalar value before Serialize and after Parse, in normal, dictionary and parallel mode.", "quantifier": "every tree, every access path", "why_tests_cant": "unbounded paths and trees", "anchors": ["include/bridge/object.h: ObjectWrapper::operator[], GetType, Size, Get, GetView"]}
{"id": "C16", "title": "Duplicate keys: which value a lookup sees", "statement": "In a map built by Insert a lookup returns the most recently inserted value of that key. After Serialize and the default Parse it returns the oldest one (the default parse reverses maps), and the parallel parse of the same bytes can show yet another one; without duplicate keys nothing changes (C15).", "quantifier": "every insertion history with repeated keys", "why_tests_cant": "all histories; the flip only shows with duplicates", "anchors": ["include/bridge/object.h: Map::Insert, Map::operator[], Map::valueParse, ParseMapBlock, Map::Merge"]}
{"id": "C17", "title": "Two round trips restore iteration order", "statement": "Serialising and parsing a document twice gives back exactly the original iteration order of every map and array.", "quantifier": "every object tree below 4 GiB", "why_tests_cant": "infinitely many trees", "anchors": ["include/bridge/object.h: Map::valueSeri, Map::valueParse"]}
{"id": "C18", "title": "Array is an insertion-ordered sequence", "statement": "After any history of Insert and Clear, Size() is the number of inserts since the last Clear, arr[i] is the i-th inserted element, arr[i] is null for i >= Size(), and iteration yields the elements newest first.", "quantifier": "every history of operations, every index", "why_tests_cant": "unbounded histories", "anchors": ["include/bridge/object.h: Array::Insert, Clear, Size, operator[], ArrayIterator"]}
{"id": "C19", "title": "Map behaves like last-write-wins lookup over an entry log", "statement": "After any history of Insert, Get (which moves a value out) and Clear, Size() counts all inserts since Clear, lookup returns the newest entry of the key (null once moved out), and iteration lists entries newest first; the owning and view maps behave identically.", "quantifier": "every history of operations, every key", "why_tests_cant": "unbounded histories", "anchors": ["include/bridge/object.h: Map::Insert, operator[], Get, Clear, Size, MapView::Insert"]}
{"id": "C20", "title": "Wrapper navigation never faults", "statement": "Following any chain of keys and indices through ObjectWrapper never throws and has no undefined behaviour: a step that does not fit gives an empty wrapper, and everything below an empty wrapper is empty.", "quantifier": "every object tree (including moved-out values), every path, every requested type", "why_tests_cant": "all mismatching paths", "anchors": ["include/bridge/object.h: ObjectWrapper"]}
{"id": "C21", "title": "Typed reads return the value exactly when the type matches", "statement": "Get<T>/GetPtr<T> on an owning value return the stored value when T is the stored type and nothing otherwise; GetView<T> does the same for in-situ values except that asking a string for bytes (or bytes for a string) throws.", "quantifier": "every scalar, every requested type", "why_tests_cant": "all pairs of stored and requested types and all values", "anchors": ["include/bridge/object.h: Data::Get, Data::GetPtr, DataView::Get, view_get_proxy, get_proxy_"]}
{"id": "C22", "title": "A value slot is never read at the wrong type", "statement": "After any history of construction, assignment and successful parsing of a Data or DataView, the stored tag describes the stored payload, reads return the last value assigned, and at most one heap payload is alive. The only exception is assigning a Data a reference to its own string or byte array, which is undefined because the old payload is destroyed first.", "quantifier": "every history of assignments over all supported types", "why_tests_cant": "unbounded histories", "anchors": ["include/bridge/object.h: Data, DataView, destruct_by_datatype", "include/bridge/variant.h: variant"]}
{"id": "C23", "title": "Destroying values releases their storage", "statement": "A user expects destroying a value (or clearing its pool) to release the string or byte array it holds. It does not: exactly one payload leaks when the last value held was a string, byte array or custom value, none otherwise. Every payload replaced by an assignment is released.", "quantifier": "every history of assignments followed by destruction", "why_tests_cant": "leaks do not change any observable value", "anchors": ["include/bridge/object.h: Data, MapItem", "include/bridge/object_pool.h: Block::~Block, destructor_proxy"]}
{"id": "C24", "title": "Serialize rejects unset values and otherwise succeeds", "statement": "Serialize throws std::runtime_error on any tree that contains a default-constructed value and no null child; on trees with only valid values it always succeeds; it reaches undefined behaviour only through a null child (for instance one moved out by Get).", "quantifier": "every object tree", "why_tests_cant": "infinitely many trees and positions", "anchors": ["include/bridge/object.h: BRIDGE_CHECK_DATA_TYPE, Data::valueSeri, seri_child", "include/bridge/serialize.h: seriData, seriObjectType"]}
{"id": "C25", "title": "Document header", "statement": "A serialized document starts with the big-endian 8-byte length of the main section, then the mode byte, then a flag byte that is 0x0A exactly when the root is split and 0 otherwise; the dictionary (REPLACE only) and the split table follow the main section.", "quantifier": "every object tree below 4 GiB", "why_tests_cant": "infinitely many documents", "anchors": ["include/bridge/object.h: SerializeNormal, SerializeReplace, SeriTotalSizeToOuter, SuffixSecondary"]}
{"id": "C26", "title": "Truncated documents: which are rejected, which are not", "statement": "Of the proper prefixes of a serialized document, Parse (every kind) rejects all but those that reach the split table at the end and leave so much of it that the terminator of the string completes it: cuts up to the end of the main section throw std::runtime_error; cuts inside the tables throw it, read beyond the end of the string, or abort in a build with assertions. An accepted prefix is read by the recursive parser as the document that was written, never as another one; the prefix without the last byte and the one that ends before the split table are always accepted. (So the wish that every proper prefix throws is false: documents without their last byte are accepted, a cut dictionary is read out of bounds, and the parallel parser loses elements of a split document whose last byte is missing; all three are proved.)", "quantifier": "every document, both encodings, every cut position, every parse option, every build", "why_tests_cant": "all documents times all cut points", "anchors": ["include/bridge/object.h: initFromContent, ParseSecondary", "include/bridge/parse.h: parseLength"]}
{"id": "C27", "title": "Bytes after a document do not change what is parsed", "statement": "Parsing a serialized document followed by arbitrary extra bytes gives the same document as parsing it alone.", "quantifier": "every document, every suffix", "why_tests_cant": "all suffixes", "anchors": ["include/bridge/object.h: Scheduler::initFromContent, NormalScheduler::Parse"]}
{"id": "C28", "title": "Malformed headers and tags raise exceptions", "statement": "Content shorter than ten bytes, an unknown mode byte, a main-section length beyond the content, an unknown split flag, an unknown object type or data type, and a main section that does not end where the header says all raise an exception rather than return a document. Whatever the recursive parser accepts is a document of the format grammar and the value returned is the one the grammar assigns to it. Whatever the parallel parser accepts of a split content is described by the block-by-block grammar, and the value returned is the one that grammar assigns. (The two can differ on damaged content; proved by an example.)", "quantifier": "every byte string with the given defect", "why_tests_cant": "all malformed inputs", "anchors": ["include/bridge/object.h: initFromContent, NormalScheduler::Parse, BRIDGE_CHECK_DATA_TYPE", "include/bridge/parse.h: parseObjectType", "include/bridge/object.h: CoroutineScheduler, ParseArrayBlock, ParseMapBlock, ParseMapViewBlock"]}
{"id": "C29", "title": "What Parse of hostile input can do", "statement": "Parse of an arbitrary byte string, with any option, returns a document, raises an exception, reads out of bounds, copies a number over a smaller local variable (only in builds without assertions), shifts by more than 63 bits (only if ten consecutive bytes have their top bit set), aborts (only in builds with assertions) or never returns (only if nine consecutive bytes have their top bit set, or the content has 4 GiB or more, or a parallel parse has no worker); nothing else can happen: no null dereference, no variant read as the wrong type, no wrong downcast, no use of a destroyed pool. (The property one would wish for, that it returns a document or raises an exception, is false: concrete byte strings are proved to read out of bounds, overrun a stack variable or abort, shift too far, recurse for ever, or return a view of 2^64-13 bytes.)", "quantifier": "every byte string, every parse option, every build", "why_tests_cant": "all inputs; non-termination cannot be observed by a test", "anchors": ["include/bridge/object.h: Data::valueParse, parse_key, ParseSecondary", "include/bridge/parse.h: BRIDGE_PARSE", "include/bridge/inner.h: skip"]}
{"id": "C30", "title": "Lengths of 4 GiB and more are silently truncated", "statement": "A string or byte array of 2^32 bytes or more is written whole, but with its length reduced modulo 2^32. The default parse then rejects the document with an exception, and so does the parallel parse if the document is not split; if it is split, the parallel parse returns the prefix of length mod 2^32 without any error. Every value below that limit is written exactly. An assertion build has a limit of 2 GiB: it aborts when the recursive Parse reads the content of a string or byte array between 2 and 4 GiB, which a build without assertions returns.", "quantifier": "every payload length", "why_tests_cant": "a test would need a 4 GiB payload", "anchors": ["include/bridge/serialize.h: seriLength, seriData"]}
{"id": "C31", "title": "Dictionary ids are dense, stable and injective", "statement": "Registering strings gives equal ids to equal strings and different ids to different strings; ids are 0,1,2,... in first-use order, never change, and GetStr inverts them.", "quantifier": "every sequence of registered strings (fewer than 2^32 distinct)", "why_tests_cant": "unbounded sequences", "anchors": ["include/bridge/string_map.h: RegisterIdFromString, GetStr, buildReMap"]}
{"id": "C32", "title": "Dictionary table round trip", "statement": "Serialising a dictionary and reconstructing it preserves the id-to-string mapping for every hash-table iteration order. A table of another writer that repeats strings or ids is read too: a repeated string keeps its first id, and an id left without a string throws.", "quantifier": "every dictionary, every iteration order", "why_tests_cant": "all hash orders", "anchors": ["include/bridge/string_map.h: Serialize, Construct"]}
{"id": "C33", "title": "Dictionary lookups stay valid as strings are added", "statement": "A user expects GetStr(id) to return the string of every id handed out so far. That holds until the first lookup: from then on lookups see exactly the strings registered before the first lookup and throw for later ones. A dictionary reconstructed from bytes hands out ids that are already in use.", "quantifier": "every interleaving of RegisterIdFromString, GetStr and Construct", "why_tests_cant": "unbounded histories", "anchors": ["include/bridge/string_map.h: GetStr, buildReMap, RegisterIdFromString, Construct"]}
{"id": "C34", "title": "Split ids are never handed out twice", "statement": "RequestId never returns an id twice (up to 2^32 requests), and after reconstructing a table from bytes it never returns an id already present in the table.", "quantifier": "every history of requests, registrations and reconstruction", "why_tests_cant": "unbounded histories, id wrap-around", "anchors": ["include/bridge/split_info.h: RequestId, Construct"]}
{"id": "C35", "title": "Split table round trip", "statement": "Serialising a split table and reconstructing it preserves the block list of every id for every hash-table iteration order, and a table with a repeated id is rejected.", "quantifier": "every table, every iteration order", "why_tests_cant": "all hash orders", "anchors": ["include/bridge/split_info.h: Serialize, Construct, GetBlockInfoFromId"]}
{"id": "C36", "title": "Object pool hands out distinct live slots", "statement": "Over any history of Alloc, Merge and Clear, Alloc never returns null and never returns the address of an object that is still alive; addresses already handed out stay valid until Clear.", "quantifier": "every history of pool operations over any number of pools", "why_tests_cant": "unbounded histories, all block growth and merge patterns", "anchors": ["include/bridge/object_pool.h: ObjectPool, Block"]}
{"id": "C37", "title": "Object pool destroys each object exactly once", "statement": "Clearing or destroying a pool runs the destructor of each object allocated in it or merged into it exactly once (for types that ask for destruction) and of no other object.", "quantifier": "every history of pool operations", "why_tests_cant": "unbounded histories", "anchors": ["include/bridge/object_pool.h: Block::~Block, destructor_proxy, Merge, Clear"]}
{"id": "C38", "title": "Containers returned by Parse can be extended", "statement": "Insert on any container of a parsed document works like Insert on a freshly built one for the normal parse and for unsplit documents; on every container of a split document parsed in parallel it is undefined, since the containers refer to a pool that no longer exists.", "quantifier": "every accepted content (written by Serialize or not), every container in the result", "why_tests_cant": "use-after-free is not observable by value", "anchors": ["include/bridge/object.h: BridgeContainerType::bridge_pool_, ParseMap, ParseArrayBlock, NormalScheduler::Parse"]}
{"id": "C39", "title": "Thread pool runs every accepted task exactly once, in order", "statement": "In every interleaving, tasks are taken from the queue in the order they were accepted (and called in that order if there is one worker), each accepted task is called at most once and, once the pool is idle or all its workers have returned, exactly once; tasks pushed after Stop are dropped.", "quantifier": "every interleaving of pushes, workers, notifications, spurious wake-ups and Stop, any number of workers", "why_tests_cant": "exponentially many schedules", "anchors": ["include/bridge/async_executor/thread_pool.h: PushTask, Stop, worker loop"]}
{"id": "C40", "title": "Thread pool never loses a wake-up and always drains", "statement": "No reachable state leaves a task queued while every worker sleeps with no notification under way; without further pushes the pool reaches idleness in boundedly many steps, and after Stop every worker exits with the queue empty (at least one worker).", "quantifier": "every reachable state, any number of workers", "why_tests_cant": "lost wake-ups are schedule dependent", "anchors": ["include/bridge/async_executor/thread_pool.h: PushTask, Stop, worker loop"]}
{"id": "C41", "title": "Dictionary lookups during a parallel parse do not race", "statement": "In a parallel parse of a document written by Serialize, no task reads the lazily built reverse dictionary while another task builds it, in any schedule. The reason is that the root map has a single block: a hand-made document with two root blocks is accepted and does race.", "quantifier": "every document produced by Serialize<REPLACE>, every interleaving of lookups", "why_tests_cant": "data races are schedule dependent", "anchors": ["include/bridge/string_map.h: GetStr, buildReMap", "include/bridge/object.h: SerializeReplace, ParseMap, ParseMapBlock"]}
{"id": "C42", "title": "Pattern matching means what it says", "statement": "Match returns true exactly when the object satisfies the pattern: map patterns require each listed key and an optional exact size, array patterns with a length require that length and each element, data patterns an optional exact type, Or/And combine; the result does not depend on hash-table order or on whether the object is owning or in-situ.", "quantifier": "every pattern without unset slots, every object", "why_tests_cant": "infinitely many patterns and objects", "anchors": ["include/bridge/pattern.h: MapPattern, ArrayPattern, DataPattern, OrPattern, AndPattern"]}
{"id": "C43", "title": "Pattern matching survives a round trip", "statement": "A pattern matches a document exactly when it matches that document after Serialize and Parse in any mode, for documents without duplicate keys; with duplicate keys the answers can differ.", "quantifier": "every pattern, every tree", "why_tests_cant": "infinitely many pairs", "anchors": ["include/bridge/pattern.h", "include/bridge/object.h"]}
{"id": "C44", "title": "Patterns with unset slots", "statement": "Match is expected to be defined for an array pattern created with a length whose element patterns were not all set. It is not: it dereferences null exactly when the array has the required length and all elements before the first unset slot satisfy their patterns, and returns false otherwise.", "quantifier": "every partially filled array pattern and every object", "why_tests_cant": "needs every fill pattern", "anchors": ["include/bridge/pattern.h: ArrayPattern"]}
{"id": "C45", "title": "Dump renders the document tree", "statement": "dump writes one line per scalar and container and one per map key, indented by depth, in iteration order; the text depends only on the types, sizes and keys of the document (values are not printed), not on whether it is owning or in-situ, and determines them if no key contains a line feed. A negative level throws std::length_error; a child moved out by Get is a null dereference.", "quantifier": "every object tree, every starting level", "why_tests_cant": "infinitely many trees", "anchors": ["include/bridge/object.h: Data::dump, Array::dump, Map::dump, MapView::dump"]}
{"id": "C46", "title": "Adaptors convert standard containers faithfully", "statement": "adaptor(v) gives an array whose i-th element is the i-th element of a vector and a map holding each key/value of an unordered_map once, recursively, for every iteration order; serialising and parsing it and reading through the wrapper gives back the original container.", "quantifier": "every nesting of vector and unordered_map over supported scalars, every iteration order", "why_tests_cant": "infinitely many types and values", "anchors": ["include/bridge/adaptor.h"]}
{"id": "C47", "title": "Which types the adaptor accepts", "statement": "A user expects adaptor to accept any nesting of vector and string-keyed unordered_map over supported scalar types. Exactly these compile: numbers and strings inside any number of containers, and a byte array on its own or inside one container. Byte arrays nested deeper have no viable overload; user-defined types satisfy the constraints but then fail to compile.", "quantifier": "every nested container type", "why_tests_cant": "infinitely many types; rejection is at compile time", "anchors": ["include/bridge/type_trait.h: AdaptorTrait, bridge_adaptor_type, bridge_type", "include/bridge/adaptor.h"]}
{"id": "C48", "title": "Variant type-list arithmetic", "statement": "Index finds the first position of a type and equals the list length exactly when it is absent, Unique holds exactly when no type repeats, and the buffer size and alignment are the maxima, so every alternative fits.", "quantifier": "every non-empty list of types", "why_tests_cant": "unbounded type lists", "anchors": ["include/bridge/variant.h: Index, Count, NotExist, Unique, MaxSize, MaxAlign"]}
{"id": "C49", "title": "Serialization is deterministic up to table order", "statement": "Serialising the same tree twice gives the same main section and the same total length whatever order the hash tables iterate in; owning and in-situ trees with the same content give the same bytes.", "quantifier": "every tree, every pair of hash-table orders", "why_tests_cant": "all hash orders", "anchors": ["include/bridge/object.h: SerializeNormal, SerializeReplace", "include/bridge/string_map.h: Serialize", "include/bridge/split_info.h: Serialize"]}
{"id": "C50", "title": "Different documents have different serializations", "statement": "Two trees with different content never serialize to the same bytes, in either mode.", "quantifier": "every pair of trees below 4 GiB", "why_tests_cant": "all pairs", "anchors": ["include/bridge/object.h: Serialize"]}
{"id": "C51", "title": "C strings are stored without their terminator", "statement": "A Data made from a character array holds it without its final NUL if it has one and whole otherwise, inner NULs included; std::string values are stored byte for byte; this survives a round trip. A DataView made from a character array shows the part before the first NUL and reads beyond the array if there is none.", "quantifier": "every character array", "why_tests_cant": "all contents", "anchors": ["include/bridge/serialize.h: serialize(const char (&)[n])"]}
{"id": "C52", "title": "Hardened standard libraries", "statement": "Serialize of an empty byte array or an empty string view indexes element 0 of an empty range: a library with bounds assertions aborts, otherwise the length-0 append is harmless.", "quantifier": "every tree, library assertions on or off", "why_tests_cant": "depends on build flags", "anchors": ["include/bridge/serialize.h: seriData"]}
{"id": "C53", "title": "Serialize writes exactly the documented format", "statement": "The bytes Serialize produces for a tree are determined by its content: header, main section (type bytes, LEB128 lengths, counts and container numbers, big-endian numbers), in REPLACE mode the dictionary with the distinct strings numbered in order of first use, and the split table; the only freedom is the order of the entries of the two tables. Another implementation of the format reads and writes the same documents.", "quantifier": "every tree of valid values below 4 GiB, both modes, every block threshold, every hash-table order", "why_tests_cant": "the format must be met for every tree, nesting, string sharing pattern and iteration order of unordered_map; tests compare a handful of round trips and never the bytes", "anchors": ["include/bridge/object.h: Serialize, SerializeNormal, SerializeReplace, Array::valueSeri, Map::valueSeri, seri_key, seri_split_id", "include/bridge/serialize.h", "include/bridge/string_map.h: Serialize", "include/bridge/split_info.h: Serialize"]}
{"id": "C54", "title": "Patterns can be destroyed", "statement": "A user expects that a pattern can be destroyed. Exactly the patterns that own no other pattern can: Pattern has no virtual destructor, so deleting an owned pattern through unique_ptr<Pattern> is undefined.", "quantifier": "every pattern", "why_tests_cant": "undefined behaviour usually goes unnoticed in a test", "anchors": ["include/bridge/pattern.h: Pattern::~Pattern, MapPattern, ArrayPattern, OrPattern, AndPattern"]}
{"id": "C55", "title": "Values of user-defined types", "statement": "A value of a class with SerializeToBridge/ConstructFromBridge stored anywhere in a tree is, after Serialize and an owning Parse with either parser, what ConstructFromBridge makes of exactly the bytes SerializeToBridge gave: the same value if the two are inverse on it, the user's exception if it throws. The type itself is not recorded: Get<U> of another user-defined type runs U's ConstructFromBridge on those bytes. At any place that holds no such value, Get<T> returns nothing and runs no user code.", "quantifier": "every user-defined type, value, tree, access path, serialization mode and parser", "why_tests_cant": "ranges over all classes a user may write and all trees", "anchors": ["include/bridge/type_trait.h: bridge_custom_type", "include/bridge/object.h: serialize_proxy, get_proxy, Data::Get, ObjectWrapper::Get"]}
{"id": "C56", "title": "Worker threads are shared by the whole process", "statement": "A user passes worker_num_ to each Parse. All parallel parses of a process share one static pool whose size is the worker_num_ of the first parallel parse (coroutine parser, document with the split flag); later values are ignored, and parses that are not parallel neither create it nor depend on it. If no call asks for zero workers, each Parse ends as if it were alone; if the first parallel one does, no parallel parse of the process ever returns.", "quantifier": "every sequence of Parse calls of a process, with every content and option", "why_tests_cant": "ranges over all histories of a process; the pool of a test process is created only once", "anchors": ["include/bridge/async_executor/thread_pool.h: ThreadPool::GetOrConstructInstance", "include/bridge/async_executor/executor.h: BridgeExecutor::schedule", "include/bridge/object.h: CoroutineScheduler::Parse"]}
{"id": "C57", "title": "The caller's pool owns everything a parse makes", "statement": "Parse(content, bp, option) makes objects and list items, and the parallel parser makes them in pools local to its coroutines. When Parse returns, every object and item reachable from the result is in the caller's bp, in the pool of its type, exactly once, and nothing was destroyed; when it throws, everything the parse made was either destroyed exactly once or is in bp, and what was in bp before is untouched (a parallel parse that throws leaves bp as it was). After any history of returning and throwing calls into one bp, destroying bp destroys everything ever made exactly once: no object leaks, dangles or is destroyed twice.", "quantifier": "every content (also malformed), both parsers, owning and in situ, every build, every state of the caller's pool, every history of calls into one pool", "why_tests_cant": "ranges over all contents, including every point at which one of the concurrent block tasks may throw, and over all histories; a leak or a dangling pointer has no visible effect in a test", "anchors": ["include/bridge/object.h: BridgePool::Merge, ParseArray, ParseArrayBlock, ParseMap, ParseMapBlock, ParseMapViewBlock, CoroutineScheduler::Parse, NormalScheduler::Parse, object_factory", "include/bridge/object_pool.h: ObjectPool::Merge"]}
{"id": "C58", "title": "Parallel parsing completes on any positive number of worker threads", "statement": "Parse with SchedulerType::Coroutine and worker_num_ = n >= 1 of a split document always completes, however deeply split containers are nested and even with one worker: a coroutine that waits for its blocks occupies no worker, tasks leave the pool's queue in the order they were started, at most n run at a time, every execution ends, and the outcome is the same for every n and every interleaving. With n = 0 nothing ever happens.", "quantifier": "every content with the split flag, every positive number of workers, every interleaving of their steps", "why_tests_cant": "deadlock depends on the interleaving and on nesting depth versus worker count; tests see one schedule", "anchors": ["include/bridge/object.h: CoroutineScheduler::Parse, ParseArray, ParseMap", "include/bridge/async_executor/executor.h: BridgeExecutor::schedule", "include/bridge/async_executor/thread_pool.h: ThreadPool"]}
{"id": "C59", "title": "Run-time checks only ever abort", "statement": "Compile the same program with NDEBUG, or without the standard library's bounds assertions. Parse with the recursive scheduler then does exactly what the checked build does - returns the same object, throws the same exception, runs into the same undefined behaviour or does not return - except where the checked build aborts. With the coroutine scheduler every returned object and every exception is the same. Serialize does the same unless the checked build aborts, and the library's own assertions never make a difference to Serialize. The converse fails: an NDEBUG build accepts contents on which the checked build aborts.", "quantifier": "every content, every option, every object tree, every combination of removed checks", "why_tests_cant": "ranges over all contents and trees, two builds at a time", "anchors": ["include/bridge/varint.h: varint_encode, varint_decode (assert)", "include/bridge/parse.h: BRIDGE_PARSE (assert)", "include/bridge/serialize.h: seriData (operator[])", "include/bridge/object.h: Parse, Serialize"]}
{"id": "C60", "title": "End to end: what a program puts in is what a reader sees", "statement": "A program builds a tree from data / data_view values, arrays and maps with Insert calls (no key twice in a map). At every access path the tree shows what the program put there: the n-th inserted element at index n, the value of each key, the type and size of each container, and nothing where nothing was inserted; after Serialize (either encoding) and Parse (either scheduler, owning or in situ) every path shows the same.", "quantifier": "every building program of any depth and width, every access path, both encodings, every parse option", "why_tests_cant": "all programs and all paths, unbounded", "anchors": ["include/bridge/object.h: Data, DataView, Array::Insert, Map::Insert, MapView::Insert, ObjectWrapper::operator[], Serialize, Parse"]}
{"id": "C61", "title": "Exact language of the recursive parser", "statement": "Compiled with NDEBUG, Parse with the recursive scheduler accepts a byte string exactly if it can be read as a document: the big-endian end of the main section, mode 0 or 1, flag 0 or 0x0A, a main section that is a map in a liberal form of the wire format (overlong numbers, arbitrary container numbers, number payloads without trailing zero bytes), with mode 1 a dictionary section, and a split section with a well-formed table that fits its size. The value returned is what the document holds under the last key \"root\". In situ, the same holds for documents without user-defined values. A content has only one such reading. In a build with assertions, a content below 2 GiB whose number payloads are complete and whose split section claims less than 2 GiB is accepted as well. In every build, whatever is returned is the value of such a reading.", "quantifier": "every byte string below 2^63 bytes (in situ: without ten-byte number fields), every parse option that selects the recursive parser", "why_tests_cant": "an equivalence over all byte strings, both directions", "anchors": ["include/bridge/object.h: Scheduler::InitFromContent, NormalScheduler::Parse, Data/DataView/Array/Map::valueParse", "include/bridge/parse.h: parseLength, parseObjectType, BRIDGE_CHECK_OOR", "include/bridge/string_map.h: StringMap::Construct", "include/bridge/split_info.h: SplitInfo::Construct"]}
{"id": "C62", "title": "Stack needed for nested documents", "statement": "Serialize, Parse with the recursive scheduler and dump recurse once per level of nesting. With a document of depth d (a leaf has depth 1), Serialize and the Parse of what it wrote need stack for d + 1 nested calls, dump for d; with that much they behave as with unlimited stack, with less they overflow the stack. For any content a Parse on a limited stack ends as with unlimited stack or overflows, and for an accepted content the depth of the document in it decides. There is no depth limit in the library: for every stack size there is a valid content of three bytes per level plus 22 that overflows it.", "quantifier": "every document, every accepted byte string, every stack size", "why_tests_cant": "a test sees one stack size and some depths; the claim is an exact threshold for all of them", "anchors": ["include/bridge/object.h: Array::valueParse, Map::valueParse, MapView::valueParse, Array::valueSeri, Map::valueSeri, MapView::valueSeri, Object::dump"]}
{"id": "C63", "title": "Exact language of the parallel parser", "statement": "Compiled with NDEBUG, Parse with the coroutine scheduler and at least one worker accepts a content with the split flag exactly if it can be read as a split document: an offset of the tables in the first eight bytes (nothing else is derived from it), mode 0 or 1, the flag, behind them a split map whose containers carry an id, their block sizes being the ones the split table lists under this id, every block being exactly a run of whole elements, and the dictionary and split sections. The value returned is what that document holds under the key \"root\" that the parser finds first. In situ, the same holds for documents without user-defined values. A content has only one such reading. In a build with assertions a content below 2 GiB whose number payloads are complete and whose split section claims less than 2 GiB is accepted as well. In every build, whatever is returned is the value of such a reading.", "quantifier": "every byte string below 4 GiB with flag 0x0A (in situ: without ten-byte number fields), every number of workers, every parse option that selects the parallel parser", "why_tests_cant": "an equivalence over all byte strings, both directions", "anchors": ["include/bridge/object.h: CoroutineScheduler::Parse, ParseArray, ParseArrayBlock, ParseMap, ParseMapBlock, ParseMapViewBlock, Scheduler::InitFromContent", "include/bridge/parse.h: parseLength, parseObjectType, BRIDGE_CHECK_OOR", "include/bridge/split_info.h: SplitInfo::Construct", "include/bridge/string_map.h: StringMap::Construct"]}
{"id": "C64", "title": "How much a parse can make of a content", "statement": "Parse with the recursive scheduler makes at most one object (value or list item) per byte of the content, whether it returns or throws (no number field of ten or more bytes); a document it returns has at most one value for every three bytes, and its strings, byte arrays and keys are together no longer than the content, or than a quarter of the square of its length if the content has a dictionary (contents of this order exist). Serialize writes at least three bytes per value and every parse of what it wrote, parallel or not, makes as many values and as much text as were written. The same is not true of the parallel parse of other contents: for every n there is a content of 6n+31 bytes, which the recursive parser reads as 2n+1 nested arrays, of which the parallel parser makes 2^n or more values, because a block is read to the end of its last child wherever that is and the next block starts inside of it.", "quantifier": "every byte string below 2^63 bytes, every option and build; every n", "why_tests_cant": "a bound over all byte strings, and a family of inputs whose results grow beyond what any test can hold", "anchors": ["include/bridge/object.h: ParseArrayBlock, ParseArray, ParseMapBlock, ParseMap, Array::valueParse, Map::valueParse", "include/bridge/split_info.h: GetBlockInfoFromId", "include/bridge/string_map.h: GetStr"]}
{"id": "C65", "title": "Conversions that throw", "statement": "If making the new value throws during an assignment to a Data (SerializeToBridge of a user type, or an allocation failure while copying a string or byte array), the exception leaves the Data claiming to hold a value of the new type that does not exist: reading that value, every later assignment and serializing any tree that contains it are undefined behaviour or fail, and no call repairs it; nothing is leaked. A ConstructFromBridge that throws during Get passes its exception on and changes nothing.", "quantifier": "every way a Data comes into being, every history of assignments before, every later value, tree, mode and build", "why_tests_cant": "histories are unbounded and undefined behaviour may look right in a test", "anchors": ["include/bridge/object.h: Data::operator=, serialize_proxy, get_proxy, destruct_by_datatype", "include/bridge/variant.h: construct, destruct"]}
{"id": "C66", "title": "Stopping the thread pool, and worker identity", "statement": "When the Stop (or destructor) that stopped the pool returns, every worker thread has ended and every accepted task has run to its end exactly once. Made by a thread that is no worker it always returns, after a bounded number of steps; made by a task it never returns (joining the own thread throws). A second Stop made meanwhile returns at once, without waiting. While a task runs on worker i, GetCurrentId and currentContextId give i (below the number of workers) and currentThreadInExecutor is true; on all other threads they give size_t(-1) and false.", "quantifier": "every number of workers, every interleaving of workers, pushes, stops and spurious wake-ups", "why_tests_cant": "all schedules of all executions", "anchors": ["include/bridge/async_executor/thread_pool.h: Stop, getCurrent, GetCurrentId, ThreadPool", "include/bridge/async_executor/executor.h: currentThreadInExecutor, currentContextId"]}
{"id": "C67", "title": "Linked lists behave as sequences, whatever pointers a program keeps", "statement": "After any sequence of calls (make, Insert, Get, Clear, assignment, moves of unique_ptrs, pool merges and moves, Serialize) in which no pool memory was freed, every Array shows exactly the inserted children in order (Size, operator[], iteration newest first), every Map exactly the inserted pairs (operator[] finds the last one, Get moves its value out and leaves a null pointer), every leaf the last assigned value and every unique_ptr variable the object it owns, also when the calls go through raw pointers into the middle of trees. Every further call with a pointer to an object of the right type returns.", "quantifier": "every history of calls, every choice of raw pointers and variables, every number of pools", "why_tests_cant": "histories and aliasing patterns are unbounded", "anchors": ["include/bridge/object.h: Array::Insert, operator[], Clear, Map::Insert, Get, MapView::Insert, ArrayIterator, MapIterator, MapViewIterator"]}
{"id": "C68", "title": "Single ownership: owned objects are finite trees", "statement": "No object is ever owned twice. An object owned by a unique_ptr is the root of a finite tree (while nothing below it has been freed), even if the program inserts containers into their own descendants through raw pointers; so Serialize and dump of it end and give the result for that tree, and the content parses back to the document that the calls describe. A container that is among its own descendants is owned by no variable; dump or serialization started from a raw pointer above it never returns a result.", "quantifier": "every history of calls, every owned object, every mode, pool, build and parse option", "why_tests_cant": "all histories, including those that build cycles", "anchors": ["include/bridge/object.h: Insert, Get, Serialize, valueSeri, dump", "include/bridge/object_pool.h: unique_ptr, object_pool_deleter"]}
{"id": "C69", "title": "Pool lifetime", "statement": "Clear, destruction and move assignment of a BridgePool end the life of exactly the objects in its memory: reading one of them is undefined behaviour and everything that is reached without touching that memory reads as before. Each of these is possible for every existing pool. Merge, move construction and move assignment keep every object of the source pool, also if the source pool is cleared or destroyed afterwards; but a container goes on allocating from the pool it was made with, so after the end of that pool Insert on it is undefined behaviour although the container itself lives on.", "quantifier": "every memory state, pool, object and pointer", "why_tests_cant": "use after free may look right in a test; all sharing patterns between pools", "anchors": ["include/bridge/object.h: BridgePool::Merge, Clear, Array, Map", "include/bridge/object_pool.h: ObjectPool, Block"]}
{"id": "C70", "title": "Parse inside a program", "statement": "In any state that calls of the library can lead to, d = Parse(content, option, pool) with the recursive parser links together in memory exactly the tree that the parse function returns as a value, or throws the same exception; every object and item of the new tree lies in the memory of the given pool and its containers allocate from that pool; no other variable changes and everything reachable from any pointer the program held before reads as before. The tree can then be extended, aliased, moved and written like one made by hand, and an object that is written and read back denotes the same document.", "quantifier": "every history of calls, content, variable, pool, reading mode and number of steps", "why_tests_cant": "the parser appends to arrays through a tail pointer and to maps at the head while the memory already holds other, aliased trees; a test sees a few layouts", "anchors": ["include/bridge/object.h: Array::valueParse, Map::valueParse, MapView::valueParse, parse_child, NormalScheduler::Parse, Parse"]}
{"id": "C71", "title": "The parallel parser in memory: no data race but the dictionary, whatever the interleaving", "statement": "In any state of a program, while a parallel Parse of a split content is under way, no coroutine ever follows a null or dangling pointer or allocates from a pool that has ended; two coroutines that run at the same time never touch the same object, list item or pool with one of them writing, so the only data race possible is the one on the lazily built dictionary: it can happen when the root map of a content with a dictionary has two or more blocks, and cannot happen without a dictionary, with one block, or for any content that Serialize has written; the strings of the dictionary matter only through those lookups; the coroutines read and write nothing that the program had before. Every interleaving ends, and all of them end with the same result: the document that the parse function returns as a value, linked together in the memory of the given pool, or the same exception. The containers of that document refer to pools of coroutines that have ended: inserting into them is undefined behaviour, immediately and after anything the program does later.", "quantifier": "every history of calls, content, pool, reading mode and interleaving of single memory accesses of the coroutines", "why_tests_cant": "a test runs under a few schedules of the operating system; races and dangling pool references depend on the schedule and rarely show", "anchors": ["include/bridge/object.h: ParseArrayBlock, ParseArray, ParseMapBlock, ParseMapViewBlock, ParseMap, Merge, CoroutineScheduler::Parse, BridgePool", "include/bridge/string_map.h: StringMap::GetStr"]}
{"id": "C72", "title": "Threads with pools of their own do not notice each other", "statement": "Any number of threads use the library at the same time, each with pools and unique_ptr variables that no other thread names; they make, insert, take, assign, clear, iterate, dump, Serialize, Parse (recursive parser), and clear, merge, move and destroy their pools. Whatever the order in which the calls of different threads happen, every thread gets to know exactly what it gets to know when it is the only thread: the same contents, texts, sizes, values and exceptions in the same order, and undefined behaviour or a failed check only where it happens to the thread alone. A call changes no object in a pool of another thread. If every thread alone comes to its end, no thread is ever stuck. With a shared variable or a shared pool none of this holds.", "quantifier": "every number of threads, all their programs, every interleaving of their calls", "why_tests_cant": "the interleavings of calls and the addresses an allocator hands out cannot be enumerated; interference through a shared list or pool shows under few of them", "anchors": ["include/bridge/object.h: BridgePool, Array, Map, MapView, Data, Serialize, Parse, NormalScheduler", "include/bridge/object_pool.h: ObjectPool"]}
{"id": "C73", "title": "Calls of Parse at the same time share the thread pool without disturbing each other", "statement": "Any number of threads call Parse at the same time, with any options, and threads may also give the process-wide ThreadPool tasks of their own that call Parse. All parallel parses share one queue, served first come first served, and never more tasks run than the pool has workers, whose number never changes. A call that ends has the outcome it has in a process of its own. If nobody asks for zero workers, calls never block each other: while a call has not ended some thread can go on, every execution comes to its end, and on documents that Serialize wrote every call then has its document - except that a parallel call made by a task on a worker of the pool throws std::logic_error, and these are exactly the calls that do. That check is needed: without it, as soon as the queue holds as many such tasks as there are workers, no parallel call of the process ever ends again, while fewer of them do no harm.", "quantifier": "every number of calls, their contents, options and kinds, every number of workers, every interleaving", "why_tests_cant": "interleavings of many parses on a shared queue cannot be enumerated, and a deadlock shows only when the tasks that wait fill the pool", "anchors": ["include/bridge/object.h: Parse, CoroutineScheduler::Parse, ParseArray, ParseMap", "include/bridge/async_executor/thread_pool.h: ThreadPool", "include/bridge/async_executor/executor.h: BridgeExecutor"]}
{"id": "C74", "title": "Documents that are complete can be read by any number of threads at the same time", "statement": "A program makes or parses any number of documents and then starts any number of threads. Every thread reads the shared documents through raw pointers - indexing, looking up keys, iterating, Size, reading leaves, dump - while it also makes, changes, serializes, parses and destroys documents of its own, in pools and variables of its own. As long as no thread changes anything through a pointer into the shared documents, or uses the pools and variables they were made with for anything but getting the pointer to the document, then in every interleaving every thread gets to know exactly what it gets to know when it is the only one; undefined behaviour and failed checks happen only where they happen to the thread alone; no object of a shared document changes or moves, and its text is the same at every moment. No lock is needed. One thread that inserts into a shared document is enough to make what another one reads depend on the order.", "quantifier": "all setups, every number of threads, all their programs, every interleaving", "why_tests_cant": "a reading operation with a hidden effect (a cache, a count, a moved list node) shows only under particular interleavings of particular calls", "anchors": ["include/bridge/object.h: Array::operator[], Map::operator[], MapView::operator[], Begin, ArrayIterator, MapIterator, MapViewIterator, Size, dump, Data, DataView", "include/bridge/object_pool.h: ObjectPool"]}
{"id": "C75", "title": "The object pool when memory runs out", "statement": "A program uses any number of object pools - Alloc, Merge, Clear, moving - and at any moment any allocation may fail. Where the vector of blocks cannot grow, std::bad_alloc leaves the call: an Alloc has then changed nothing (no pool, no object, no buffer lost), and a Merge has moved some of the objects and left the others. After any sequence of such failures every object that was made has been destroyed exactly once or belongs to exactly one pool, at the address its Alloc returned, and clearing the pools destroys all of them and gives all the memory back. The failure of aligned_alloc itself is not checked: an Alloc that needs a new block then constructs its object at a null pointer. This, and an Alloc in a pool that got its last block from the second of two interrupted Merges, are the only undefined behaviours that running out of memory can lead to.", "quantifier": "all histories of operations on any number of pools, every choice of failing allocations, all allocators", "why_tests_cant": "an allocation can fail at any point of any history, and what is left behind matters only for later operations", "anchors": ["include/bridge/object_pool.h: Block::Block, Block::Alloc, Block::~Block, ObjectPool::Alloc, ObjectPool::Merge, ObjectPool::Clear"]}
{"id": "C76", "title": "In-situ documents and later changes of the buffer", "statement": "A document parsed in situ shows what the caller's buffer holds now. For contents without a dictionary (written by the library, or any accepted one) and the recursive parser: after the caller has overwritten any bytes that the document's strings, byte arrays and keys show, with the length unchanged, the document in hand is the one that a new Parse of the buffer gives. The strings of a document do not overlap, so overwriting one of them changes this one string and nothing else. The same holds with the parallel parser of what the library has written without a dictionary, with or without blocks; it does not hold of every content that the parallel parser accepts, because it accepts overlapping blocks. With either parser, with or without a dictionary: types, numbers, lengths, sizes and order stay whatever is written over the buffer, bytes that no string shows do not matter to the document at all, and an owning parse is not affected by anything that happens to the buffer. With a dictionary an edit can leave a buffer that Parse no longer accepts.", "quantifier": "all documents, all contents that the recursive parser accepts, all written contents for the parallel parser, all edits of the shown bytes, both parsers where said", "why_tests_cant": "that the parser never looks at a byte of a string it makes a view of, and that no two strings share a byte, is a statement about all contents and all edits", "anchors": ["include/bridge/object.h: Parse, NormalScheduler::Parse, DataView, MapView, Object::valueParse", "include/bridge/parse.h: parseData"]}
{"id": "C77", "title": "What destroying a pool does not give back", "statement": "The destruction of a BridgePool frees its blocks and runs the destructors of the classes that ask for it, but gives back none of the std::string and std::vector<char> objects that the parsed objects hold. An owning Parse of a document written by the library, by either parser, into any pool, makes exactly the objects of the parsed root map, and when the pool is destroyed the storage of every string, every byte array, every value of a user-defined type and every key of the document stays allocated; a loop of parse and destroy loses the whole text of the document once per round. The same holds at least for every other content that an owning Parse accepts. An in-situ Parse, of any content and with any outcome, makes no object that could hold such storage and loses nothing.", "quantifier": "all documents, both formats, both parsers, all numbers of workers, all contents of the pool before the call, all numbers of rounds; for the last two parts all contents and all outcomes", "why_tests_cant": "A leak shows in a test only as memory that some tool misses for the documents tried; that it is exactly the text of the document, for every document and both parsers, and nothing at all in situ whatever the content, is a statement about all of them.", "anchors": ["include/bridge/object_pool.h: destructor_proxy, Block::~Block, RequireDestruct, DontRequireDestruct", "include/bridge/object.h: Data, MapItem, Map, MapViewItem, DataView, Parse", "include/bridge/variant.h: bridge_variant"]}
{"id": "C78", "title": "How long a serialized document is", "statement": "Without a dictionary a content is as long as the text of the document (its strings, keys, byte arrays and values of user-defined types) plus at least 3 bytes per value, 1 per map entry and 19, and at most 41 bytes per value and 54, whatever the block size and however the containers are split. With a dictionary every string and key is stored once however often it occurs: the length is bounded by any list of strings that contains them all, plus the other bytes and 41 per value, and from below by its distinct strings. Therefore a document whose text and values stay below 2 GiB by that measure is within the limits of the format on every reader, and Serialize followed by Parse, with either format, either parser, owning or in situ, returns it: no hypothesis about the bytes is left.", "quantifier": "all documents, both formats, all block sizes and hash orders of the writer, all readers, all numbers of workers", "why_tests_cant": "A bound has to hold for every document, every depth, every split and every repetition of strings; tests measure the sizes of the documents tried.", "anchors": ["include/bridge/object.h: Serialize, Array::valueSeri, Map::valueSeri", "include/bridge/serialize.h: seriLength, seriData", "include/bridge/string_map.h: StringMap", "include/bridge/split_info.h: SplitInfo"]}
{"id": "C79", "title": "Storing what was loaded", "statement": "Take any content whatever (written by this library, by another program, or damaged) that Parse accepts, with either parser, owning or in situ. If the result is not empty it is a complete document: Serialize accepts it in either encoding, and parsing what it writes, with either parser, gives the same document up to the order of map entries. Loading and storing settles: after one rewrite, loading and storing twice more gives back the same bytes - header and document byte for byte, and the tables too when the hash tables iterate in the same order - so repeated load and store neither loses nor accumulates anything.", "quantifier": "all byte strings that are accepted, both parsers, both encodings, owning and in situ, all builds of the readers and writers (a split content parsed in parallel below 4 GiB)", "why_tests_cant": "The accepted contents include those that no writer produces; tests rewrite only documents the library wrote.", "anchors": ["include/bridge/object.h: Parse, Serialize, NormalScheduler::Parse, CoroutineScheduler::Parse", "include/bridge/serialize.h: seriData"]}
{"id": "C80", "title": "Stopping the thread pool while documents are parsed", "statement": "The pool that all parallel parses share can be stopped by any thread (ThreadPool::GetOrConstructInstance(n).Stop()). Whenever that happens, no call of Parse returns anything but what it returns alone: no partial document and no error. Exactly the tasks given to the pool after the stop are dropped, and schedule reports success for them: a call one of whose tasks is dropped never returns, so a parallel Parse made after the stop never returns, and neither does one that still has containers to hand out; a task given to the pool afterwards is never run. Nothing else is lost: everything in the queue at the stop is run, every execution comes to its end, and then exactly the calls with a dropped task have not ended. Calls that are not parallel are not affected.", "quantifier": "every number of calls, their contents, options and kinds, every number of workers, every moment of the stop, every interleaving", "why_tests_cant": "the outcome depends on the moment of the stop relative to every task of every parse; a test sees one moment, and a call that never returns cannot be observed", "anchors": ["include/bridge/async_executor/thread_pool.h: PushTask, Stop, ThreadPool", "include/bridge/async_executor/executor.h: BridgeExecutor::schedule", "include/bridge/object.h: CoroutineScheduler::Parse, ParseArray, ParseMap"]}
{"id": "C81", "title": "Parallel parses under way at the same time in one memory", "statement": "Threads of one process may each have a document parsed by the parallel parser at the same time, while the others go on making, changing, storing, reading and destroying objects and pools of theirs. Then no coroutine of any of these parses does anything undefined; no two of them - of the same parse or of different ones - touch the same object or pool in a conflicting way, except the lazily built dictionary of their own parse; none of them touches what a thread can reach. What happens elsewhere changes nothing that a parse is about to read, and an access of a coroutine changes nothing that a thread can see. Each parse ends as it would end alone: with the same document, which its caller's variable then shows, or the same exception. The caller's pool must be alive when the result is taken. No parse keeps its thread for ever.", "quantifier": "every number of threads, every program of each (calls and parallel parses, all contents and options), every interleaving of the single memory accesses of all coroutines and of the calls of all threads", "why_tests_cant": "the interleavings of the accesses of several parses are beyond any enumeration, and an error would show only for some of them", "anchors": ["include/bridge/object.h: Parse, CoroutineScheduler, ParseArray, ParseMap, syncAwait", "include/bridge/object_pool.h: ObjectPool::Alloc, Merge"]}
{"id": "C82", "title": "Parse when memory runs out", "statement": "Any request for memory that a call of Parse makes - for an object, a string or byte array, a key, the tables of the header, a coroutine and its pool, its tasks, the growth of a pool into which another is merged - may be refused. Then the call returns exactly what it returns with enough memory and leaves the caller's pool as it would then be, or it throws: there is no partial document. A content that can be parsed gives its document or std::bad_alloc, and one that cannot gives its own exception or std::bad_alloc; only if aligned_alloc returns a null pointer for a block, which the code does not check, is there undefined behaviour. After the exception everything that was in the caller's pool still is, the recursive parser has destroyed nothing, the parallel one has left the pool alone unless the very last merge was interrupted, and whatever was made is destroyed exactly once, at once or with the pool, over any history of calls into one pool, each with refusals of its own. An in-situ parse of a content without a dictionary needs no memory for texts and keys.", "quantifier": "every content, option, number of workers, state of the caller's pool, history of calls, and every choice of refused requests", "why_tests_cant": "every single allocation of every parse may be the one that fails, and any set of them; tests do not make allocations fail at all", "anchors": ["include/bridge/object.h: Parse, NormalScheduler, CoroutineScheduler, ParseArray, ParseMap, ParseArrayBlock, ParseMapBlock, BridgePool::Merge", "include/bridge/object_pool.h: ObjectPool::Alloc, Merge, Block", "include/bridge/parse.h: parseData"]}
{"id": "C83", "title": "Building and writing documents when memory runs out", "statement": "A program makes pools and objects, links them with Insert, moves them, writes and parses, and any request for memory of these calls may be refused: the call throws std::bad_alloc, the program catches it and goes on. Then a refused call has changed nothing that the program can see - no variable, no container, no value read through any pointer - and can simply be made again; only a Serialize that runs out of memory after it has begun to write has consumed its argument, and the document is lost. Over any such history every object has one owner, the containers hold exactly what the calls that returned put into them, and what is finally written parses to that document.", "quantifier": "every sequence of calls, with the recursive and the parallel parser in any interleaving, and every choice of refused requests", "why_tests_cant": "any allocation of any history may be the one that fails, and what it leaves behind matters only for later calls", "anchors": ["include/bridge/object.h: Array::Insert, Map::Insert, MapView::Insert, Data, SerializeNormal, SerializeReplace, BridgePool", "include/bridge/object_pool.h: Block::Alloc, ObjectPool::Alloc"]}
{"id": "C84", "title": "The thread pool when threads or memory are refused, and tasks that throw", "statement": "The pool of worker threads is made by the first parallel Parse (or the first PushTask) of the process, with exactly the number of workers that it asks for or not at all. If the system refuses the first thread, that call throws, there is no pool, and every later call ends as if the refused call had not been made, so it can be repeated; if the first thread is there but not all of them, the call neither returns nor throws (destroying the half-made pool is undefined or terminates), which cannot happen to a process that never asks for more than one worker; calls that are not parallel, and all calls once the pool is there, are unaffected. A PushTask that throws for lack of memory has accepted nothing and disturbed nothing. If a task lets an exception out, the process ends at that moment, whatever is still queued or under way; a pool that has accepted such a task cannot come to rest, and without such a task it runs every accepted task exactly once as before.", "quantifier": "every history of calls and every choice of refused threads; every number of workers, every set of tasks that throw and every interleaving of pushes, refused pushes and workers", "why_tests_cant": "which thread or request is refused, and which tasks are queued or running when one throws, depends on the machine and the schedule", "anchors": ["include/bridge/async_executor/thread_pool.h: ThreadPool::ThreadPool, GetOrConstructInstance, PushTask", "include/bridge/async_executor/executor.h: BridgeExecutor::schedule, currentThreadInExecutor", "include/bridge/object.h: CoroutineScheduler::Parse"]}
{"id": "C85", "title": "Overwriting a value inside a stored document", "statement": "What Serialize writes in front of and behind the bytes of one value or key depends on the rest of the document and on the type and length of the value only, not on the value. So a program that has a stored document can overwrite the bytes of a number with another number of the type, or of a byte array or string with others of the same length, without rewriting lengths, split table or anything else: the result is exactly the document that Serialize writes for the changed object, and it parses, with both parsers and in both modes, to the document with that value changed and nothing else. With a string dictionary this holds for all values except strings and keys; there a string of the same length may change the length of the document. Documents of the same shape whose keys and leaves take the same room are written with the same number of bytes, the same header and the same tables.", "quantifier": "every document, every place in it at any depth, every pair of values of the same type and length, both serialize types, every block size, both parsers, both modes, every number of workers", "why_tests_cant": "the place may be anywhere in any document; a test overwrites one value of one document", "anchors": ["include/bridge/object.h: Object::valueSeri, Array::valueSeri, Map::valueSeri, Data::valueSeri, DataView::valueSeri, MapView::valueSeri, Serialize, SerializeNormal, SerializeReplace, Parse", "include/bridge/serialize.h: seriLength", "include/bridge/split_info.h: SplitInfo::RequestId, RegisterSplitInfo", "include/bridge/parse.h"]}
{"id": "C86", "title": "Documents sent one after another", "statement": "The bytes that Serialize writes tell where they end: from the documented layout alone (header, body, dictionary if there is one, split table) a reader finds the end of the first document in a sequence of bytes, whatever follows, and notices when any byte of it is still missing. So a receiver that keeps the bytes that have arrived and takes off complete documents gets exactly the documents that were sent, in order, and at every moment no more than those whose bytes are all there, however the bytes are cut into chunks, and whatever bytes come behind the documents; each of them parses to the document that was written, also in place with the following ones still behind it. No written document is the beginning of another, and a sequence of bytes is at most one sequence of documents, whoever wrote them and in whichever mode. The length in the header is not the length of the document: a receiver that cuts there loses the tables, and Parse rejects what it gets.", "quantifier": "every sequence of documents, of writers and of serialize types, every way the bytes are cut into chunks, every prefix, every byte sequence behind a document", "why_tests_cant": "a stream can be cut anywhere, and any bytes may follow a document", "anchors": ["include/bridge/object.h: Serialize, SerializeNormal, SerializeReplace, SeriTotalSizeToOuter, SuffixSecondary, initFromContent, Parse", "include/bridge/split_info.h: SplitInfo::Serialize", "include/bridge/string_map.h: StringMap::Serialize"]}
