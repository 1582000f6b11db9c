{
 "C26": {
  "status": "proved",
  "note": "C26_cut_exact decides every cut of every document; the parallel parser on accepted cuts of split documents is only described by a counterexample (C26_cut_split_table_loses_data) and by C63. The claim that every proper prefix throws is refuted (C26_cut_accepted, C26_cut_in_dictionary_reads_outside)."
 },
 "C29": {
  "status": "proved",
  "note": "C29_outcomes lists every way Parse of arbitrary bytes can end. The wish that it returns or throws is false of the code and refuted by concrete inputs (C29_reads_out_of_bounds, C29_overruns_stack, C29_aborts, C29_shifts_too_far, C29_never_returns, C29_view_outside_content)."
 },
 "C64": {
  "status": "proved",
  "note": "The bounds are proved for the recursive parser on arbitrary bytes and for both parsers on written documents; for the parallel parser on arbitrary bytes the bound is refuted (C64_parallel_explodes: exponential)."
 },
 "C65": {
  "status": "proved",
  "note": "The wish that a failed assignment leaves a usable object is false of the code; the theorems say what the object can still be used for."
 },
 "C66": {
  "status": "proved",
  "note": "The wish that every Stop waits is refuted by C66_second_stop_does_not_wait; C66_stop_in_task_never_returns is the limit for tasks."
 },
 "C73": {
  "note": "the check of syncAwait (async_simple) is an assumption, a parameter of the model; C66 proves that currentThreadInExecutor is true exactly on workers"
 },
 "C74": {
  "note": "A call is one step of a thread. `Sharing` is the discipline of the threads, stated on their programs; `readers_sharing` is an instance, C74_writer_matters shows that it is needed."
 },
 "C75": {
  "note": "Growth of the vector fails before any block is moved (std::vector). `CarefulFrom` is the discipline of C75_exceptions_only; C75_interrupted_twice shows that it is needed."
 },
 "C76": {
  "note": "The buffer-and-parser agreement is for contents without dictionary: the recursive parser on whatever it accepts, the parallel parser on whatever Serialize writes (C76_parallel_edit); C76_overlapping_blocks shows why not on whatever it accepts; shape, untouched bytes and the owning parse are for both parsers and both formats. C76_dictionary_not_editable shows why the dictionary is left out. `Obj.reread` is what the views of a tree show when the buffer holds other bytes (Model/Reread.lean)."
 },
 "C77": {
  "note": "Storage is counted by std::string and std::vector<char> object whose destructor never runs; short strings that std::string keeps inside itself lose no heap memory. The storage of objects of a Parse that throws is not counted. The root map that stays in the pool is the witness `root` (its objects are exactly what the parse added to the pool)."
 },
 "C78": {
  "note": "The lower bounds are exact (an empty array reaches them in both formats); the upper bounds charge five bytes for every varint. The measures (text, nodes, entries, strings, blobs) are in Spec/Size.lean."
 },
 "C79": {
  "note": "Completeness of what an accepted content yields is unconditional for the recursive parser; for a split content parsed in parallel it rests on the soundness of that parser (C28), hence below 4 GiB and, in situ, without numbers that claim more than 8 bytes. An accepted content without a 'root' entry yields a null pointer, which must not be handed to Serialize (C24)."
 },
 "C80": {
  "note": "As in C73 the run is over every interleaving of the steps of all calls; a worker that goes on with a task whose blocks are done is the one that finished the last block, or the task enters the queue again (both are in the model). What Stop itself waits for is C66."
 },
 "C81": {
  "note": "The calls of the threads are those of C72 (each a step of its own); C81_needs_pool is the one obligation of the caller. C81_ends assumes only that a step that stays possible is taken at some time."
 },
 "C82": {
  "note": "Nothing is assumed of which requests are refused; where a refusal and an error of the content could both come first, the model lets the refusal come first. Memory of the thread pool's queue and inside async_simple is not part of the model."
 },
 "C83": {
  "note": "A refusal is an exception: aligned_alloc returning null and an interrupted BridgePool::Merge are C75, a refused assignment to a Data is C65 (the leaf is then unusable), and the objects that a refused Parse leaves in the pool are C82. No call of the program frees a pool in C83_graph and C83_calls_to_document, as in C67 and C68."
 },
 "C84": {
  "note": "That syncAwait asks the executor for its pool on the calling thread, before it starts the coroutine, is assumed of async_simple. A pool of zero workers needs no thread and is never refused (C40, C56: it never runs anything). Memory refused inside async_simple is not modelled."
 },
 "C85": {
  "note": "The place of the value is not computed in the theorem: there is one position for all values of the type and length. Overwriting with a value of another length is not covered."
 },
 "C86": {
  "note": "The receiver is not in the repository; it is specified in Spec/Stream.lean from the layout of a document only, and uses nothing of the library. Documents of 4 GiB and more are excepted (C30)."
 }
}