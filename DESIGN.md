# Formal model of chloro-pn/bridge in Lean 4 — design

The library is a header-only C++20 serializer (`/repo/include/bridge`).  The model is a set of total,
computable Lean functions written function by function from the headers; properties are theorems about
those functions.  Layout:

* `lean/Verif/Model/*`  – the model.  Every definition cites the file and lines it models.
* `lean/Verif/Spec/*`   – small independent specifications (abstract documents, LEB128, big-endian, wire format,
  abstract queues, …) that do not mention the model.
* `lean/Verif/Proof/*`  – helper lemmas.
* `lean/Verif/Props/*`  – the property theorems (names start with the property id), each with an example
  showing that a concrete case meets its hypotheses.

## How C++ is represented

* `char`/bytes are `UInt8`; a `std::string` is `List UInt8`; reading index `size()` of the content string gives the
  terminator 0, reading beyond is the outcome `ub`.
* Every function that can throw, fail an `assert`, or have undefined behaviour returns `Except Err`, where `Err` is one
  of `exn e` (a C++ exception, one constructor per throw site), `abort` (assertion), `ub k` (undefined behaviour, with a
  reason) and `fuel` (the step bound of the model ran out; theorems quantify over all bounds, so `∀ bound, fuel` is
  non-termination).
* `size_t`, `uint64_t`, `uint32_t`, `int`, `ssize_t` arithmetic is on `Nat`/`Int` with explicit reduction modulo 2^64 /
  2^32 wherever the C++ code wraps or narrows.
* Build and platform facts are a parameter `Cfg`: assertions on/off, library bounds assertions on/off, host endianness,
  signedness of `char`, `std::string::max_size`, `split_block_size`, and the iteration order of the two
  `std::unordered_map`s (an arbitrary permutation).  Theorems hold for every `Cfg` unless a field is constrained in the
  statement.
* Linked lists (`ArrayItem`, `MapItem`, `MapViewItem`) are Lean lists in link order, `size_` is kept as a separate field.
* A `string_view` is its bytes plus where it points (caller memory, or offset and length in the parsed content).
* `float`/`double` are bit patterns; copying is assumed to preserve bits.
* Coroutine tasks (`Lazy`, `collectAllPara`) are pure functions of the immutable content; the executor is a separate
  nondeterministic model (thread pool) and a completion-order model.

## Per property plan

| id | modelled | proof |
|----|----------|-------|
| C01–C05 | `varint_encode/decode/encoding_length`, `seriLength`, both `parseLength`, `InnerWrapper` | induction on n / on the length list against an LEB128 specification; refutation for unsigned char |
| C06 | `Endian`, `flipByByte`, memory images of numbers | byte-list algebra |
| C07–C09, C12, C15–C17, C49, C50 | all `valueSeri`/`valueParse`, `Serialize*`, `Scheduler`, `NormalScheduler`, `CoroutineScheduler`, `ParseArray*`, `ParseMap*` | serializer refines an abstract wire format; parser inverts the wire format; structural induction over documents |
| C10, C11 | provenance of views | same induction |
| C13 | completion orders of `collectAllPara` | permutation invariance |
| C14, C34, C35 | `SplitInfo`, block bookkeeping | list induction |
| C18–C22, C51 | `Array`, `Map`, `MapView`, `ObjectWrapper`, iterators, `Data`, `DataView`, `serialize` | refinement to abstract sequences / entry logs, induction over histories |
| C23 | payload ownership accounting | invariant + refutation |
| C24, C25, C30, C52 | serializer error paths, header | case analysis on the serializer refinement |
| C26 | the whole of `Parse` on a prefix of what `Serialize` wrote | the table readers on a table of which a part is missing (`Proof/Cut.lean`), with the grammar of C61 |
| C27–C29 | parser on arbitrary bytes | totality/prefix lemmas, a classification of all outcomes, explicit hostile witnesses |
| C31–C33, C41 | `StringMap`, lazy reverse map, concurrent lookups | invariants over histories / interleavings |
| C36–C38 | `Block`, `ObjectPool`, pool references of containers | invariants over histories |
| C39, C40 | `ThreadPool` as a transition system | inductive invariants, decreasing measure |
| C42–C44 | `Pattern` classes | structural induction |
| C45 | `dump` | structural induction |
| C46, C47 | `adaptor`, `type_trait.h` concepts | induction over types/values |
| C48 | `variant.h` type-list metafunctions | list induction |
| C53 | the whole serializer | exact equation between `serialize` and the format specification `Spec/Format.lean` |
| C54 | implicit destructors of the pattern classes | case analysis |
| C55 | a user type as a pair of functions; `Data(T)`, `Get<T>` | from C15 |
| C56 | a process as a list of `Parse` calls over the optional static pool | induction over the calls |
| C57 | the parsers instrumented with pools as lists of owned objects (ghost identities), one pool per coroutine | the instrumented parser erases to the plain one; accounting invariant over its monad |
| C58 | the coroutine parser of C13 with queue, tickets and `n` workers | simulation by the schedules of C13, progress, decreasing measure |
| C59 | the same functions under two build configurations that differ in the active checks | relation between the two runs, by induction on the step bound (parsers) and the tree (serializer) |
| C60 | building programs as a datatype, run with the modelled `Insert`s | induction over programs, then C15 |
| C61 | the recursive parser on arbitrary bytes, against the grammar of `Spec/Grammar.lean` + `Spec/Language.lean` | soundness by induction on the step bound (C28), completeness by induction on the document, with inversion and completeness of both table readers |
| C62 | `valueSeri`, `valueParse`, `dump` with a counter of the nested calls that the stack still has space for (`Model/Stack.lean`) | relation between the run with and without the counter, by induction; the depth of the result decides; with C61 for contents not written by `Serialize` |
| C63 | the coroutine parser on arbitrary bytes, against `Spec/SplitGrammar.lean` + `Spec/SplitLanguage.lean` | soundness by induction on the step bound (C28), completeness by induction on the reading (`Proof/CoComplete.lean`); what it parses recursively inside a block is C61's grammar with the flag `last`: a number payload that is the last thing in the content must not be empty, because the parser checks for the end of the whole content there |
| C64 | both parsers on arbitrary bytes; the parsers with pools of C57 count the objects made | sizes of documents against the grammars of C61/C63 by induction; a cost relation over the monad of C57 (`Proof/Cost.lean`); families of contents with their readings given explicitly |
| C65 | `Data::operator=` left by an exception (`Slot.assignThrow`) | case analysis over the states of C22; induction over trees for `Serialize` |
| C66 | `Stop` with its `join` loop, the start of a worker, the thread-local identity (`Model/StopCalls.lean`) over the pool of C39 | invariant, projection to the executions of C39/C40, lifting of C40's progress, decreasing measure |
| C67 | memory with addresses, raw pointers, several pools and `unique_ptr` variables (`Model/Heap.lean`); the specification is a graph of sequences (`Spec/Store.lean`) | invariant (chains, disjointness, sizes, single ownership), forward simulation of every call |
| C68 | the same memory; `valueSeri` and `dump` along the pointers | ownership invariant; paths from a root have no repetition, so they are bounded; induction over the tree to reach the functions of Model/Seri.lean, Model/Dump.lean |
| C69 | the pool calls on the same memory | observers only depend on what can be reached |
| C70 | the recursive parser on that memory, allocation by allocation and pointer by pointer (`Mem.valueParse`), as a call of programs | induction on the bound: both parsers side by side; a parsed region satisfies the invariant of C67 |
| C71 | the parallel parser as a tree of single memory accesses (`Prog`), with one `Step` for each access of any coroutine (`Model/CoHeap.lean`); programs of C67-C70 may call it | each coroutine owns a part of the memory (a small concurrent separation logic, `Proof/CoWp.lean`): weakest preconditions, parts of concurrent coroutines disjoint, sound for every interleaving; the result is related to Model/CoParse.lean; termination by well-foundedness of `Prog` |
| C72 | threads as lists of instructions over one memory of `Model/Heap.lean`, interleaved call by call (`Model/Threads.lean`) | `Proof/Threads.lean` runs each thread side by side with itself alone: a renaming of its addresses carries its objects in the shared memory to those of the memory it has alone, every function of the model respects it, and a call of another thread leaves it valid |
| C73 | the calls of a process at the same time over one queue and `n` workers (`Model/Share.lean`), each parallel one with the tasks of `Model/Exec.lean`; pool tasks that call `Parse` hold a worker | outcomes by C13 for each call; progress as in C58 with the workers of all calls added up; termination by the sum of the sizes; the deadlock by an invariant on the tickets |
| C74 | the threads of C72 after a setup program whose documents they share; which pointer variables point into them is a parameter of the statement (`Sharing`) | the simulation of C72 with two relations per thread: its own objects under a renaming of the addresses, the shared ones under the identity; reading instructions leave the memory as it is |
| C75 | the pools of C36/C37 with failing allocations: `aligned_alloc` that returns null (not checked by the code) and vectors of blocks that cannot grow (`std::bad_alloc`), also in the middle of `Merge` (`Model/PoolOom.lean`) | the invariant of C36/C37 on the blocks that have a buffer; hollow blocks (moved from by an interrupted `Merge`) are tracked per pool |
| C76 | what the views of an in-situ tree show when the buffer holds other bytes (`Model/Reread.lean`) | the recursive parser as a function of two buffers that agree except where the views it makes show (`Proof/Reread.lean`), the places of the views in the order of parsing (`Proof/RereadApart.lean`); the parallel parser on contents whose blocks end where the table says (`Proof/CoTight.lean`, `Proof/CoReread.lean`), which the written ones do (`Proof/CoRT.lean`) |
| C77 | the strings and vectors that the objects of a parse hold, and what the destruction of a pool runs (`Model/Leak.lean` on top of `Model/Owner.lean`; the texts of a document in `Spec/Storage.lean`) | which classes a parse makes (an invariant of both parsers), the tree that is made with its document, `Same` documents have the same texts up to order |
| C78 | nothing new: the bytes that `Serialize` writes (C53) | a potential argument: the bytes written so far and those that the tables will need, against the text and the number of values (`Proof/Size.lean`) |
| C79 | nothing new: both parsers on arbitrary contents (C28, C61, C63) and the writer (C53) | every accepted tree is complete (induction over the parsers), then C07/C12 and C49 (`Props/Rewrite.lean`) |
| C80 | the process of C73 with a `Stop` of its pool at any moment, after which `PushTask` drops (`Model/Stopped.lean`) | invariants per call, dropped tickets stay where they are, progress lemma of C73 without the dropped ones, decreasing measure (`Props/Stopped.lean`) |
| C81 | threads with the instructions of C72 and parallel `Parse`s, one memory; every access of every coroutine of every parse under way is a step (`Model/CoMany.lean`) | each parse under way owns a part of the memory (the assertions of C71), these parts and what the variables and pointers reach are pairwise apart; kept by every access (frame of C71) and by every call (the renaming of C72); termination by the well-founded order of C71 and the length of the programs (`Proof/CoMany.lean`, `Props/CoMany.lean`) |
| C82 | the parsers of C57 with a supply that may refuse any request for memory (`Model/ParseOom.lean`) | the invariant of C57 for every supply (`Proof/ParseOom.lean`); a relation with the run that has enough memory: a result and a state that is returned is the same, an exception is the same or `bad_alloc` (`Proof/ParseOomSame.lean`) |
| C83 | programs of C67-C71 in which any call may be refused memory and throws (`Model/HeapOom.lean`): what is left behind is at most one item that nothing leads to | the invariant and the simulation of C67 for the refused calls (`Proof/HeapOom.lean`), so the theorems of C67 and C68 for programs with refusals |
| C84 | the loop of the pool's constructor with a system that may refuse any thread, `Parse` over the calls of a process with it; the transition system of C39 with a `PushTask` that throws and a task that lets an exception out (`Model/PoolStart.lean`) | induction over the loop and over the calls; an execution is one of C39/C40 with refused pushes left out, and at most one last event `taskThrew` (`Props/PoolStart.lean`) |
| C85 | places in a document and what is put there (`Spec/Place.lean`), over the model of `Serialize` and of both parsers of C01, C02 | what the writer emits around the place is the same for all values of a type and length: induction over the place with the environment (split ids, dictionary) that the writer carries; then the round-trip theorems; a counterexample by evaluation for strings in a dictionary |
| C86 | a reader that finds the ends of documents, written from the documented layout alone (`Spec/Stream.lean`), against the model of `Serialize` | C25 gives the layout of whatever is written; the reader finds the end of every such layout and notices every cut in it; induction over the documents and over the chunks; C50 and C26 for the rest |

Nothing in the list is outside the reach of a model; the parts that live in the runtime (actual memory, real threads,
the async_simple library) are represented by the assumptions recorded in the trusted base below.

## Reading a theorem

* `Parses r po content res` (Props/Common.lean, over `Parse` of Model/CoParse.lean): with every sufficiently large step bound
  the call `Parse(content, bp, po)` on a machine/build `r` has the outcome `res`.  `Diverges` is: every bound runs out.
* `Fits r content`: the content is small enough for the reader (below 4 GiB, `≤ max_size`, and below 2 GiB if `assert` is on,
  because `remain()` is narrowed to `int` before it is compared in an assertion).
* `Writable w o`: for a library with bounds assertions, no empty byte array and no empty in-situ string (C52); no restriction
  otherwise.
* `o.doc? = some d`: the object tree `o` represents the abstract document `d` of `Spec/Doc.lean`; it holds of every tree that is
  built through the public API and has neither null children nor unset values.
* `w.charSigned = true` is needed wherever something is written (C04 says why).

## Trusted base

1. Lean 4.33.0's kernel.  No `sorry`-like escape, no compiled evaluation, no own axioms.  Every theorem depends on a subset of
   `propext`, `Quot.sound` and `Classical.choice`; the list per theorem is in `AXIOMS.md` (generated by `tools/axioms.py`).
   Mathlib is not used.
2. That the definitions in `Model/` say what the C++ code does.  Each cites the lines it models.
3. The specifications in `Spec/`, which are what the theorems compare the model with.
4. The C++ implementation facts listed here:
   * `std::string` is NUL-terminated, `std::unordered_map` is a map with an arbitrary iteration order (which does not change while
     nothing is inserted), `std::aligned_alloc` and the allocator of the standard containers never fail (except in C75, C82, C83 and C84), threads can be created (except in C84), copies of `float`/`double`
     preserve bits, `size_t` has 64 bits, `int` 32.
   * A mutex makes critical sections atomic; `condition_variable::wait` releases the mutex and sleeps in one step and may wake up
     spuriously; `notify_one` wakes one sleeper if there is one.
   * `async_simple`: `collectAllPara` runs each of its tasks to completion on the executor, once, in any order and interleaving, and
     then resumes the awaiting coroutine with the results in the order of the tasks; `value()` rethrows the stored exception;
     `syncAwait` throws `std::logic_error` if the executor says that the calling thread is one of its own (`currentThreadInExecutor()`),
     and otherwise blocks the thread until the task is over (C73 also says what happens without that check).

### What is modelled

`varint.h` all; `inner.h` all; `parse.h` all; `serialize.h` all; `data_type.h` all; `object_type.h` all; `util.h` byte order;
`string_map.h` all; `split_info.h` all; `object_pool.h` all; `variant.h` (construct/get/destruct and the type lists); `object.h`: Data, DataView,
Array, Map, MapView, ObjectWrapper and its iterator, the As* casts, dump, valueSeri/valueParse of all classes, the coroutine
parsers, Serialize (both modes), Parse (both schedulers); `pattern.h` all; `adaptor.h` and the concepts of `type_trait.h`;
`async_executor/thread_pool.h` all; the executor's use of it by the coroutine scheduler as an arbitrary interleaving;
`ThreadPool::GetOrConstructInstance` over the calls of a process; `BridgePool` and its merging by the coroutines (ghost identities); `BridgeExecutor::schedule` and the workers under the
coroutine parser.

### What is not modelled

* Time and memory consumption, and allocation failure (`std::bad_alloc`) outside of the object pools (C75), of `Parse` (C82) and of the calls that
  make, link and write objects (C83; an assignment that throws: C65): not in `async_simple`; in the queue of the thread pool it is C84.  Stack depth is modelled for C62 only, as a number of
  nested calls, each of the same size; everywhere else the stack is unlimited.
* The internals of `async_simple` and of `logger.h`-like helpers, and `BridgeExecutor::stat`, beyond
  the assumptions above.
* In `Model/Heap.lean` an address is used once (a freed block may be handed out again by the real allocator; reading through a stale
  pointer is undefined behaviour in the model either way), and an assignment `p = std::move(p)` of a pool to itself counts as an error.
* The objects that a throwing `Parse`, recursive or parallel, leaves in the pool or destroys with the pools of its coroutines are left out
  of `Model/Heap.lean` and `Model/CoHeap.lean` (nothing refers to them; C57 has them).
* In `Model/Threads.lean` the calls of different threads interleave as wholes. C72 shows that such calls neither change nor depend on each
  other's objects, which is why finer steps would give nothing new; the parallel parser is not among the calls of these threads. In
  `Model/CoMany.lean` it is, and its coroutines interleave access by access with everything else (C81); which worker runs a coroutine, and
  that there are workers to run it, is left to C58, C73 and C80. The dictionary of a parse belongs to that call. `ObjectPool`s of different threads take their memory from the same thread-safe `aligned_alloc`.
* In `Model/CoHeap.lean` reading a whole object or list item is one access, and so is `Alloc`; that `collectAllPara` orders what happens
  before and after it is assumed of `async_simple`; a memory has fewer than 2^64 addresses.
* In `Model/Share.lean` a task given to the pool makes one call of `Parse` and deals with its exceptions; a call that is not parallel is
  one step of its thread.
* Placement of `Data` payloads in memory below the level of "an object of type T lives in the buffer".
* `benchmark/`, `example/`, `test/`.
* Overload resolution is modelled for `adaptor` only; elsewhere the overload that the compiler picks was determined by reading.

## Findings (each is a theorem unless marked otherwise)

1. Unsigned `char` platforms write wrong varints: 256 becomes one byte 0 (C04).
2. The default parse reverses maps, so with duplicate keys a lookup changes its answer after a round trip, and differs from the
   parallel parse (C16, C43).
3. Hostile input: out-of-bounds read, stack overrun (NDEBUG) or abort (assertions), shift by 70 bits, endless recursion on a
   28-byte input (a key length that wraps modulo 2^64), in-situ view of 2^64-13 bytes (C29, C05).
4. Truncation: a cut dictionary is read out of bounds; a split document without its last byte silently loses elements in the
   parallel parse; every document without its last byte, or without its whole split table, is
   still accepted by the recursive parser (C26).
5. `remain()` is narrowed to `int` before it is compared: assertion builds abort on contents of 2 GiB or more
   (C05, C30; elsewhere hypothesis `Fits`).
6. Lengths of 4 GiB and more are written modulo 2^32; the parallel parse then returns a truncated string without error (C30).
7. The reverse dictionary is built once: strings registered after the first lookup are not found; a reconstructed dictionary
   reuses ids (C33).  A split table with id 2^32-1 makes the id counter wrap (C34).
8. Containers parsed by coroutines refer to a destroyed pool: `Insert` is undefined (C38).
9. `GetStr` builds the reverse table under `const` without a lock; only because `Serialize` gives the root map one block the parallel
   parse does not race (C41).
10. Payloads of `Data` leak when the value or its pool is destroyed (C23); patterns are deleted through a base without virtual
    destructor (C54); `ArrayPattern(n)` with unset slots dereferences null (C44).
11. `adaptor` rejects byte arrays nested two or more containers deep, and selects but cannot compile user-defined types (C47).
12. A hardened standard library aborts on empty byte arrays and empty string views (C52).
13. `Map::Get` leaves a null child; a later `Serialize` or `dump` dereferences null (C24, C45).
14. A thread pool of zero workers never runs anything (C40), so a parallel parse with zero workers never returns.
15. `d = *d.GetPtr<std::string>()` destroys the string before copying it (C22).
16. `DataView` of a `char[n]` stops at the first NUL and reads past the array if there is none (C51).
17. NDEBUG builds accept number payloads shorter than their type (part of the model, `parseNum`; C28's grammar shows it).
18. Merging an object pool into itself is undefined (C36).
19. The two parsers may accept the same (damaged) split content and return different documents: the recursive one counts the
    children, the parallel one believes the split table (C28).
20. In-situ parse throws on custom values (C11); `GetView<string>` on bytes throws while `Get` returns nothing (C21).
21. The parallel parser does not check that a block ends where its last child ends, so blocks can overlap: 631 bytes make it build more
    than 10^30 values, although the recursive parser reads them as 201 nested arrays (C64).
22. `Data::operator=` destroys the old value and sets the new tag before it makes the new value: if that throws, the object can only be
    destroyed any more (C65).
23. Only the first `Stop` waits for the workers; a `Stop` inside a task joins its own thread (C66).
24. A container keeps a reference to the pool it was made with: after `p.Merge(std::move(q))` and the end of `q` the containers of `q`
    can be read, but `Insert` on them is undefined (C69).  A program can build a circle with raw pointers; `dump` of it never ends (C68).
25. Every container that the parallel parser makes keeps a reference to the `BridgePool` variable of its coroutine, which is moved from and gone when
    `Parse` returns: the document can be read, moved and written, but `Insert` on any container of it is undefined, whatever is done later (C71).
26. `Parse` with the coroutine scheduler cannot be used inside a task of the pool: `syncAwait` refuses it, and if it did not, as many such
    tasks as workers would block every parallel parse of the process for good (C73).
27. `Block` does not look at the result of `aligned_alloc`: without memory `Alloc` constructs the object at a null pointer.  A `Merge` that
    `std::bad_alloc` interrupts leaves moved-from blocks that claim room in the other pool; a second interrupted `Merge` can make one of
    them the last block of a pool, and the next `Alloc` constructs at a null pointer (C75).
28. In-situ documents can be edited in place only without a dictionary: with one, all uses of a string show the same bytes of the table, and an
    edit that makes two entries equal leaves a buffer that `Parse` throws on (C76).
29. `MapItem` derives from `DontRequireDestruct` although it has a `std::string` member, and `~Data` does nothing to its buffer: of a document
    that was parsed owning, every key, string and byte array stays allocated when the pool is destroyed (C77, C23).  Only in-situ
    documents are free of this.
30. After `ThreadPool::Stop` tasks are dropped while `BridgeExecutor::schedule` answers true: a parallel `Parse` made later, or still under way
    with containers to hand out, waits for ever (C80).
31. A `Serialize` that throws after its first `Insert` - for lack of memory (C83) or because something cannot be written (C24) - has already taken
    the document: the caller's pointer is null, and nothing leads to the document any more.
32. If the system has the first thread of the pool but not all of them, the constructor of `ThreadPool` destroys a condition variable in use and
    a vector of joinable threads: the process hangs or terminates, and no `catch` around `Parse` helps (C84).
33. The eight bytes at the front, called the total size, are not the size of the document: they leave out the dictionary and the split table.  A
    program that frames messages by them cuts every document short, and `Parse` throws on what is left (C86).
34. With a dictionary no string of a stored document can be overwritten in place, not even by one of the same length (C85).

## Testing the theorems

`seeded/LOG.jsonl` records deliberately wrong versions of the model (one edit each), the claim the edit breaks and which
theorems stopped being provable.  The runs are made outside `/verif` by a driver that replaces every proof that fails, rebuilds
everything that depends on it, and lists the property theorems that then rest on a failed proof.
