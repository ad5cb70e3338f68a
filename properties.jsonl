{"id": "C01", "title": "Generated FIFO is a lossless bounded queue", "statement": "For the module produced by types.fifo.mkFifoDefinition(name, datawidth, addrwidth), the words delivered by accepted dequeues are, in order and without loss or duplication, exactly the words accepted by enqueues; an enqueue is accepted exactly when fewer than 2**addrwidth-1 words are stored and a dequeue exactly when at least one is stored; `empty`, `full`, `almost_empty` and `almost_full` report exactly 'no word', 'capacity reached', 'at most one word' and 'at most one free slot'.", "quantifier": "every address width >= 1, every data type, every initial memory content, every finite sequence of (enq, wdata, deq) inputs starting from reset", "why_tests_cant": "the state space (pointer wrap-around times memory contents times schedule) is unbounded; wrap-around bugs only show for particular alignments of head and tail", "anchors": ["veriloggen/types/fifo.py: mkFifoDefinition", "veriloggen/thread/fifo.py: FIFO"]}
{"id": "C02", "title": "FIFO occupancy counter and flow control of the thread FIFO", "statement": "The `count` signal that thread.FIFO keeps beside the generated FIFO always equals the number of stored words (and `space` the number that still fits); a word presented through enq_rtl while its ready is high is never dropped and comes out of deq_rtl once and in order; has_space(n) guarantees that n consecutive words are taken; the thread operations enq and deq move exactly one word each, and try_enq/try_deq report exactly whether they moved one.", "quantifier": "every address width, every schedule of enqueue and dequeue requests, every behaviour of the other side", "why_tests_cant": "requires an invariant relating a separate counter, the registered enable, and the pointers over all histories", "anchors": ["veriloggen/thread/fifo.py: FIFO.enq_rtl, FIFO.deq_rtl, FIFO.__init__", "veriloggen/types/fifo.py: mkFifoDefinition"]}
{"id": "C03", "title": "Skid buffer transfers every beat once and in order", "statement": "A SkidBuffer (or any chain of them) between a valid/ready producer and a valid/ready consumer delivers exactly the accepted input beats, in order, without loss or duplication; while an output beat is stalled (valid and not ready) its payload and valid stay unchanged; the ready given to the producer is a registered function (does not depend combinationally on the consumer's ready).", "quantifier": "every payload type, every chain length, every interleaving of valid and ready over any number of cycles", "why_tests_cant": "back-pressure schedules are unbounded; skid buffers fail only on specific interleavings of stall and release", "anchors": ["veriloggen/types/skidbuffer.py: make_skidbuffer, SkidBuffer", "veriloggen/types/axi.py: AxiMasterWriteData.__init__"]}
{"id": "C04", "title": "Pipelined multiplier computes the exact product with fixed latency under stalls", "statement": "The multiplier generated for dataflow/stream (and types.mul) with depth d outputs, d enabled cycles after operands are presented, exactly their product in the full (left width + right width) result, for all four combinations of signedness; cycles in which `update` is low leave the whole pipeline unchanged.", "quantifier": "every pair of widths, every depth >= 2 (smaller depths raise), every operand stream, every stall schedule, all signedness combinations", "why_tests_cant": "operand space is exponential in the width and stall schedules are unbounded", "anchors": ["veriloggen/types/mul.py: mkMultiplierCore", "veriloggen/stream/mul.py: mkMultiplierCore, mkMultiplier", "veriloggen/dataflow/mul.py: mkMultiplierCore"]}
{"id": "C05", "title": "Pipelined restoring divider is exact for every width", "statement": "The divider generated by dataflow/stream div.py for width W returns, W+2 enabled cycles after operands are presented, the quotient truncated toward zero and the remainder with the sign of the dividend (signed case) or floor quotient and remainder (unsigned case) for every non-zero divisor; for divisor zero the unsigned quotient is all ones.", "quantifier": "every width W >= 1, every dividend, every divisor, all (equal) signedness settings", "why_tests_cant": "2**(2W) operand pairs per width; the proof needs a loop invariant of the restoring recurrence", "anchors": ["veriloggen/dataflow/div.py: divider_code, get_div", "veriloggen/stream/div.py: divider_code, get_div"]}
{"id": "C06", "title": "Divider pipeline: stalls and back-to-back operands do not interfere", "statement": "Operands may be issued to the divider every enabled cycle; the k-th result depends only on the k-th operands, and cycles with `update` low change nothing.", "quantifier": "every operand stream, every stall schedule, every width", "why_tests_cant": "needs an induction over the pipeline contents for unbounded streams", "anchors": ["veriloggen/dataflow/div.py: divider_code, get_div", "veriloggen/stream/div.py: divider_code, get_div"]}
{"id": "C07", "title": "Multi-port RAM behaves as an array", "statement": "For the RAM produced by mkRAMDefinition, after any history the word at an address is a word written to it in the latest cycle that wrote it (the only one, unless two ports wrote it at once) or its initial value; a synchronous read port presents, one cycle later, the word it wrote itself or else the content its address had before that cycle's writes took effect, and keeps its value when not enabled.", "quantifier": "every number of ports, every address width, every history of port operations, with and without the enable option, every order in which a simulator may apply the writes of different ports", "why_tests_cant": "history-dependent; port conflicts and read-during-write cases are unbounded", "anchors": ["veriloggen/types/ram.py: mkRAMDefinition"]}
{"id": "C08", "title": "RAM burst read streams exactly the requested words", "statement": "A burst read of `length` words with stride s starting at address a delivers to the consumer exactly the words at a, a+s, ..., a+(length-1)*s, in that order, with `last` raised on and only on the final word, whatever the consumer's ready schedule.", "quantifier": "every start address, stride, length >= 1, RAM contents and every ready schedule", "why_tests_cant": "ready schedules are unbounded; the off-by-one between read latency and back-pressure appears only for some of them", "anchors": ["veriloggen/thread/ram.py: RAM.read_burst"]}
{"id": "C09", "title": "RAM burst write stores exactly the supplied words", "statement": "A burst write of `length` words with stride s at address a writes the i-th supplied (valid) word to a+i*s and nothing else, and reports done exactly once after the last one. (A supplied word marked last ends the burst early.)", "quantifier": "every start address, stride, length >= 1, data and valid schedule", "why_tests_cant": "valid schedules are unbounded", "anchors": ["veriloggen/thread/ram.py: RAM.write_burst"]}
{"id": "C10", "title": "Multi-bank RAM is one flat memory", "statement": "MultibankRAM with a power-of-two number of banks maps every flat address to exactly one (bank, local address) pair and back, so that scalar reads and writes through it behave as one flat array; a packed burst word is the concatenation of the banks' words with bank 0 in the least significant position.", "quantifier": "every power-of-two bank count, every address, every history of accesses", "why_tests_cant": "address space is unbounded and the claim is about all access histories", "anchors": ["veriloggen/thread/ram.py: MultibankRAM.read, MultibankRAM.write, MultibankRAM.read_burst_packed"]}
{"id": "C11", "title": "If/Elif/Else chains of Seq are exclusive and complete", "statement": "After a chain seq.If(c1)(s1).Elif(c2)(s2)...Else(sn) in a Seq, at every clock edge exactly the statements of the first branch whose condition holds (or the Else branch if none) take effect. Chained calls seq.If(a).If(b)(s) execute s exactly when all conditions of all calls hold.", "quantifier": "every chain length, all conditions (including ones that overlap), all register contents", "why_tests_cant": "the number of condition combinations is exponential and the builder keeps hidden state between calls", "anchors": ["veriloggen/seq/seq.py: Seq.If, Seq.Elif, Seq.Else, Seq.add"]}
{"id": "C12", "title": "Seq statement order: the last executed assignment wins", "statement": "When several statements of one Seq assign the same register in the same clock edge, the value stored is the one of the statement added last among those without delay; delayed statements have lower priority than undelayed ones and longer delays have lower priority than shorter ones; a register no executed statement assigns keeps its value.", "quantifier": "every list of statements with any delays, all conditions, all register contents", "why_tests_cant": "unbounded programs and states", "anchors": ["veriloggen/seq/seq.py: Seq.make_code, Seq._add_statement"]}
{"id": "C13", "title": "Seq.Delay(n) fires exactly n cycles later", "statement": "A statement added with Delay(n), n > 0, takes effect at a clock edge exactly when its condition (0 or 1 valued) held n edges earlier and reset was asserted neither then nor since; with LazyCond the condition is instead the one at the firing edge; with EagerVal the stored value is the right-hand side as it was n edges earlier. Statements added before or after do not interfere.", "quantifier": "every n, every condition, right-hand side, input history", "why_tests_cant": "relates state to unbounded history", "anchors": ["veriloggen/seq/seq.py: Seq._add_delayed_cond, Seq._add_delayed_subst, Seq._add_statement"]}
{"id": "C14", "title": "Seq.Prev(x, n) is the value of x n cycles ago", "statement": "The signal returned by seq.Prev(x, n) equals at every clock edge the value x had n edges earlier, or the initial value if reset was asserted since, also when several Prev calls on the same variable (with the same initial value) share registers; with a condition it is the value of x at the n-th most recent edge at which the condition held.", "quantifier": "every n, every set of Prev requests in any order, every history of x", "why_tests_cant": "relates state to unbounded history and to caching across calls", "anchors": ["veriloggen/seq/seq.py: Seq.Prev"]}
{"id": "C15", "title": "Synchronous reset restores every managed register", "statement": "When reset is asserted at a clock edge, every register assigned by the Seq/FSM that declares an initial value (including the generated delay registers, and for an FSM the state register and its delayed copies) holds that value after the edge and no other register changes, provided at least one managed register declares an initial value; a Seq none of whose registers declares one ignores reset.", "quantifier": "every list of statements, every register state", "why_tests_cant": "quantifies over all programs built with the API", "anchors": ["veriloggen/seq/seq.py: Seq.make_reset, Seq.make_always", "veriloggen/seq/reset_visitor.py: ResetVisitor", "veriloggen/fsm/fsm.py: FSM.make_reset"]}
{"id": "C16", "title": "FSM executes exactly the current state's statements and transitions", "statement": "At each clock edge an FSM executes the statements attached to the current state only, and moves to the destination of the last-added jump of that state whose condition holds (taking the else destination where one was given and the condition fails), staying in place if there is none.", "quantifier": "every set of states, statements and jumps, every register contents, every input", "why_tests_cant": "unbounded programs and executions", "anchors": ["veriloggen/fsm/fsm.py: FSM.goto, FSM.goto_next, FSM.goto_from, FSM.make_case, FSM._get_when_statement"]}
{"id": "C17", "title": "case and if renderings of an FSM are equivalent", "statement": "The FSM body generated as a case statement and the one generated as a list of if statements produce the same next register values from every state.", "quantifier": "every FSM, every register contents", "why_tests_cant": "equivalence of two programs over all states", "anchors": ["veriloggen/fsm/fsm.py: FSM.make_case, FSM.make_if"]}
{"id": "C18", "title": "FSM delayed statements fire n cycles after the state was active", "statement": "A statement attached with Delay(n) to the FSM state the builder is at takes effect exactly when the FSM was in that state with the (one-bit) condition true n clock edges earlier and reset was not asserted in between; with LazyCond the condition is the one at the time of effect, with EagerVal the right-hand sides are the ones n edges earlier. With When(i) for a state i other than the builder's current one this does not hold.", "quantifier": "every FSM, state, n and input history", "why_tests_cant": "relates state to unbounded history", "anchors": ["veriloggen/fsm/fsm.py: FSM._add_statement, FSM._add_delayed_cond, FSM._add_delayed_state"]}
{"id": "C19", "title": "The thread compiler preserves Python control flow", "statement": "Take a thread function made of assignments (also to tuples), augmented assignments, if/else, while, for over range or a list, pass, break, continue, return and calls of user functions, where no function is called in the test of a while and where, in no statement list, a loop follows an if that contains a break or continue of an enclosing loop. For every initial valuation, if executing the statements in program order terminates, the FSM made by Thread.start reaches its last state, then has the same values in all variables, and keeps them; and if the FSM ever is in its last state, the program terminates. A reset puts the FSM in its first state. For a for-range loop with positive step whose body changes neither the loop variable nor the bounds, executing the statements means what Python means, except that after the last iteration the loop variable holds the next value of the progression. A for loop over a list or tuple, whose body does not change the elements, executes its body once per element in order, with the target assigned the element. Without these restrictions it is false: a break in an if before an inner loop leaves only the inner loop; a function in the test of a while is called only once; the end of a range is evaluated again in every iteration; a range with negative step is never iterated.", "quantifier": "every program of the fragment, every initial state, every number of loop iterations", "why_tests_cant": "programs and executions are unbounded; jump targets are resolved by a scope tree whose mistakes appear only for particular nestings", "anchors": ["veriloggen/thread/compiler.py: CompileVisitor.visit_If, visit_While, _for_range_fsm, visit_Break, visit_Continue, _assign", "veriloggen/thread/scope.py: ScopeFrameList"]}
{"id": "C20", "title": "break and continue bind to the innermost enclosing loop", "statement": "In a thread function (with the restrictions of C19), whenever the FSM is in the state of a reachable break, its next state is the exit of the innermost loop that lexically encloses the statement, the state entered when the condition of that loop is false; whenever it is in the state of a continue, its next state is the beginning of the next iteration of that loop (the test of the condition, for a for loop the update of the loop variable followed by the test). No other register changes. For a break or continue inside an if that is followed, in the same statement list, by another loop it is false: the jump goes to that loop instead.", "quantifier": "every nesting of loops and conditionals", "why_tests_cant": "nesting depth and order are unbounded", "anchors": ["veriloggen/thread/compiler.py: CompileVisitor.visit_While, visit_Break, visit_Continue", "veriloggen/thread/scope.py: ScopeFrameList.getUnresolvedBreak, getUnresolvedContinue"]}
{"id": "C21", "title": "Mutex gives mutual exclusion", "statement": "At no clock cycle are two different threads between the completion of lock() (or a successful try_lock()) and the execution of their next unlock() on the same Mutex, even when several threads request in the same cycle; and try_lock() by another thread never succeeds meanwhile.", "quantifier": "every number of threads, every schedule and every (statically fixed) order in which the generated always-block evaluates the requests", "why_tests_cant": "concurrent schedules are unbounded; same-cycle races depend on statement order", "anchors": ["veriloggen/thread/ttypes.py: Mutex.lock, Mutex.try_lock, Mutex.unlock"]}
{"id": "C22", "title": "Mutex makes progress", "statement": "If the Mutex is free and at least one thread is requesting it while none is unlocking, then two cycles later some thread that requested it holds it; a holder that unlocks always frees it; reset frees it; while it is free nobody holds it, and it stays free until it is requested.", "quantifier": "every number of threads, every state reachable by any schedule", "why_tests_cant": "liveness over unbounded schedules", "anchors": ["veriloggen/thread/ttypes.py: Mutex.lock, Mutex.unlock"]}
{"id": "C23", "title": "Barrier releases all parties together and only when all have arrived", "statement": "With numparties = n and n threads using a Barrier, no thread returns from its k-th wait() before every thread has called wait() for the k-th time, and when the last one arrives all of them return at the same clock edge (no thread is left behind).", "quantifier": "every n >= 1, every schedule of arrivals, any number of rounds", "why_tests_cant": "concurrent schedules are unbounded; lost wake-ups only show for particular interleavings of the mutex, the count and the one-cycle done pulse", "anchors": ["veriloggen/thread/ttypes.py: Barrier.wait, Mutex"]}
{"id": "C24", "title": "Pipeline scheduling preserves the dataflow semantics", "statement": "For an acyclic stream graph, ASAP scheduling never raises; every scheduled operator starts in the end stage of all its operands (delay registers fill the gaps, constants excepted); all outputs are balanced to one depth d, the longest chain of operators the outputs depend on; only delays are inserted; every node is allocated after the nodes it uses and within the stages of the valid chain. In the generated circuit each output in cycle t is the value of the graph on the inputs up to d advances of the stream before, for every stall schedule: for graphs of stateless operators without stalls the output in cycle t + d is the graph evaluated on the inputs presented in cycle t. Exception (negation proved): without ivalid an accumulator also consumes what the registers before it contain while the pipeline fills.", "quantifier": "every expression graph (any sharing), any operator latencies, every input history and stall schedule", "why_tests_cant": "graphs and histories are unbounded; a single misaligned path corrupts only mixed-depth graphs", "anchors": ["veriloggen/stream/scheduler.py: ASAPScheduler", "veriloggen/stream/allocator.py: Allocator", "veriloggen/stream/stream.py: Stream.implement"]}
{"id": "C25", "title": "Stream valid/ready control never loses or duplicates a beat", "statement": "With ivalid and oready, the sequence of outputs accepted downstream is the image of the sequence of accepted inputs, in order, one for one, for every valid and back-pressure schedule; at most d (pipeline depth) accepted inputs are still in flight and they leave after d more advances. Exceptions (negations proved): ivalid with iready but no oready raises; oready with ovalid but no ivalid leaves ovalid undriven; with neither ivalid nor oready, ovalid is 1 from the first cycle, so that reset values are output as valid.", "quantifier": "every pipeline depth, every valid/ready schedule", "why_tests_cant": "schedules are unbounded", "anchors": ["veriloggen/stream/stream.py: Stream.implement, Stream.implement_control, Stream._make_valid_chain"]}
{"id": "C26", "title": "Stream reduction operators accumulate exactly the enabled elements", "statement": "ReduceAdd/ReduceSub/ReduceMax/ReduceMin (and every accumulator built on an arbitrary operator) output, after each accepted element, the fold of the operator from the initial value over the enabled elements since the last accepted reset that came with an enabled element; with size = n the fold restarts after every n enabled elements; with interval = m only every m-th enabled element is folded in. The sum, difference, maximum and minimum agree with the mathematical ones modulo the width. Not true of the code, and shown by witness: size combined with interval >= 2 stops updating, and a reset with enable = 0 is partly forgotten.", "quantifier": "every operator, initial value, size, reset and enable schedule, element stream", "why_tests_cant": "unbounded histories", "anchors": ["veriloggen/stream/stypes.py: _Accumulator, ReduceAdd, ReduceMax"]}
{"id": "C27", "title": "Stream counters follow their arithmetic progression", "statement": "Counter(step, initval, size, offset, interval) outputs on the accepted element after k (intervals of) enabled ones: initval + k*step modulo the width without size; (initval + k*step) mod size with size; offset + (k mod m)*step with offset, where m is the number of terms below size. Pulse(size = n) is 1 on exactly every n-th enabled element. Not true of the code, and shown by witness: a reset with enable = 0 or with interval >= 2 does not restart the counter, and Pulse with interval > 2 never fires.", "quantifier": "every size, step, reset/enable schedule", "why_tests_cant": "unbounded histories", "anchors": ["veriloggen/stream/stypes.py: Counter, Pulse"]}
{"id": "C28", "title": "Xorshift random source never sticks at zero and never merges two states", "statement": "The state update used by RandXorshift is a bijection on 32- and 64-bit words that maps zero to zero, hence a non-zero seed never reaches zero, at any number of steps.", "quantifier": "every seed, every number of steps, both word sizes", "why_tests_cant": "2**32 / 2**64 states and unbounded steps", "anchors": ["veriloggen/stream/stypes.py: RandXorshift"]}
{"id": "C29", "title": "Rounding right shift rounds to nearest", "statement": "For a signed operand x of width W and 0 <= r <= W, SraRound(x, r) is the integer nearest to x / 2**r, ties going away from zero, and equals x for r = 0. Not true of the code, and shown by witness: r > W, and an unsigned operand with its top bit set.", "quantifier": "every x, every r", "why_tests_cant": "unbounded numeric domain", "anchors": ["veriloggen/stream/stypes.py: SraRound"]}
{"id": "C30", "title": "Tree reductions equal left folds", "statement": "The generic op_tree over n operands returns the same value as folding the associative operator over the operand list in order, for every n, and uses a tree of depth ceil(log2 n). For operands of one type AddTree is the sum modulo the width and Max and Min are the maximum and minimum. Not true of the code, and shown by witness: AddTree with operands of mixed widths, Max with mixed signedness.", "quantifier": "every operand count, every associative operator, every operand values", "why_tests_cant": "unbounded operand count", "anchors": ["veriloggen/stream/stypes.py: op_tree, AddTree, Max, Min"]}
{"id": "C31", "title": "Pattern address generator visits the nested-loop addresses in order", "statement": "A source set by set_source_pattern with pattern [(size0,stride0),...] reads exactly the addresses offset + sum(i_k*stride_k) (modulo the address width) in row-major order with dimension 0 innermost, each index tuple once, one per unstalled cycle, and then stops; a sink set by set_sink_pattern writes the k-th word for which its when condition holds to the k-th of these addresses and stops after the last; both under any oready stall schedule.", "quantifier": "every number of dimensions, sizes from 1 to 2^(addrwidth+1)-1 (the size registers have addrwidth+1 bits), every stride, offset and stall schedule, every when schedule", "why_tests_cant": "loop bounds and schedules are unbounded", "anchors": ["veriloggen/thread/stream.py: Stream._synthesize_set_source_pattern, Stream._synthesize_set_sink_pattern, Stream._to_pattern"]}
{"id": "C32", "title": "Multi-dimensional shapes become the row-major pattern", "statement": "set_source_multidim(shape, order) visits every element of the C-ordered array exactly once when order is a permutation of the axes, in the order of the nested loops over the axes with the first axis of order innermost; without an order, in memory order. Negative axes, which Python accepts as indices, get a wrong stride (shape (2,3), order (-1,0) visits 0, 6, 12, 3, 9, 15).", "quantifier": "every shape, every axis order", "why_tests_cant": "unbounded shapes", "anchors": ["veriloggen/thread/stream.py: Stream._to_pattern, Stream._set_source_multidim"]}
{"id": "C33", "title": "Multi-pattern generator visits each pattern's addresses", "statement": "set_source_multipattern visits the addresses of each of the given patterns, one pattern after the other, when all patterns have the same sizes. For patterns of different sizes the code does not do so, because counts are reloaded from the sizes of the previous pattern; and a second start without setting the patterns again does not stop after the last pattern, because the pattern counter is decremented in place.", "quantifier": "every nonempty list of patterns of equal sizes between 1 and 2^addrwidth-1, at most 2^(width of the counter) patterns, every stall schedule; counterexamples for the rest", "why_tests_cant": "depends on register-reload timing between patterns with different sizes", "anchors": ["veriloggen/thread/stream.py: Stream._synthesize_set_source_multipattern"]}
{"id": "C34", "title": "DMA requests partition the transfer and respect AXI limits", "statement": "A DMA of n >= 1 words at a word-aligned byte address (addresses modulo 2^addrwidth) is issued as a sequence of AXI bursts that are contiguous, cover exactly the n words in order, each have between 1 and max_burstlen beats, and never cross a 4 KB boundary; the request loop terminates. A write of size 0 issues nothing; a read of size 0 nevertheless issues one burst whose length field encodes 256 beats.", "quantifier": "every size, aligned start address, data width (power-of-two bytes), max_burstlen", "why_tests_cant": "address/length space is huge; boundary cases are easily missed", "anchors": ["veriloggen/thread/axim.py: AXIM._check_4KB_boundary, AXIM._synthesize_read_req_fsm", "veriloggen/types/axi.py: AxiMaster.check_boundary, rest_boundary, mask_addr"]}
{"id": "C35", "title": "AXI master channels hold a request until it is accepted", "statement": "On every AXI channel driven by write_request/read_request/write_data (AXI4, AXI4-Lite, AXI4-Stream output, and the slave's push_read_data), once valid is raised it stays raised with unchanged payload until ready; provided no two calls on the same channel are acknowledged at the same clock edge, each acknowledged request produces exactly one handshake with its address/length/data, in order (a write request of length 0 produces none). When two calls are acknowledged at the same edge only the one written later is sent.", "quantifier": "any number of calls with any conditions and arguments, every ready schedule, runs of any length", "why_tests_cant": "protocol property over unbounded histories", "anchors": ["veriloggen/types/axi.py: AxiMasterWriteAddress.write_request, AxiMasterWriteData.write_data, AxiMasterReadAddress.read_request"]}
{"id": "C36", "title": "Outstanding-write accounting is exact", "statement": "The AXI master's outstanding-write count equals the number of accepted write addresses minus the number of accepted write responses at all times, never overflows, and write_completed() is true exactly when no write request is on offer and none is unanswered. This holds for the AXI4-Lite master too, although there a second write can be requested before the first has completed, contrary to the comment in write_acceptable.", "quantifier": "every legal schedule of address and response handshakes", "why_tests_cant": "unbounded histories", "anchors": ["veriloggen/types/axi.py: AxiMaster.__init__, AxiMaster.write_acceptable, AxiMaster.write_completed"]}
{"id": "C37", "title": "DMA width conversion keeps the words in little-endian order", "statement": "When RAM words are wider (narrower) than AXI words by a power-of-two factor, the DMA packing logic assembles (splits) them so that the i-th RAM word occupies the i-th group of bits in the AXI beat sequence, least significant first, for every data and every handshake schedule; packing then unpacking is the identity. A ratio that is not a power of two is accepted by the code, but then no word is ever delivered.", "quantifier": "every power-of-two width ratio >= 2 (and equal widths), every transfer length >= 1, every data, every beat and FIFO schedule", "why_tests_cant": "unbounded data and ratios", "anchors": ["veriloggen/thread/axim.py: AXIM._synthesize_read_data_fsm_narrow, _synthesize_read_data_fsm_wide, _synthesize_write_data_fsm_narrow, _synthesize_write_data_fsm_wide"]}
{"id": "C38", "title": "Request descriptors survive packing", "statement": "unpack_read_req(pack_read_req(...)) and unpack_write_req(pack_write_req(...)) return every field unchanged, for all field values that fit their declared widths.", "quantifier": "every address width, op_sel width, field values", "why_tests_cant": "exponential in width", "anchors": ["veriloggen/thread/axim.py: AXIM.pack_read_req, AXIM.unpack_read_req, AXIM.pack_write_req, AXIM.unpack_write_req"]}
{"id": "C39", "title": "Fixed-point conversions round trip and are exact within precision", "statement": "Converting an integer to fixed point with point >= 0 fractional bits and back (to_fixed, fixed_to_int) returns the integer; fixed_to_int and fixed_to_int_low split a raw value into the integer below it and the remaining fraction. Writing a fixed-point value to a variable with a larger point and back is the identity when the shifted value fits; to a variable with a smaller point it rounds toward negative infinity. int_part is the floor and dec_part the remaining bits. With a negative point fixed_to_int raises (it calls an undefined function).", "quantifier": "every value, every point", "why_tests_cant": "unbounded numeric domain", "anchors": ["veriloggen/types/fixed.py: to_fixed, fixed_to_int, adjust, shift_left, shift_right, write_adjust"]}
{"id": "C40", "title": "Fixed-point arithmetic is exact up to the documented point", "statement": "Addition and subtraction of fixed-point values with different points denote exactly the sum and difference of the rational values (modulo the destination width). Comparison agrees with the rational values when the aligned operands fit in the wider operand width, and multiplication is the exact product rounded down to max(point) fractional bits when the raw product fits in the context of the assignment. All assume operands of one signedness. Without these conditions the claims fail: an aligned operand or product that overflows, or mixed signedness, gives a wrong result.", "quantifier": "every pair of values and points", "why_tests_cant": "unbounded numeric domain", "anchors": ["veriloggen/types/fixed.py: _FixedPlus, _FixedMinus, _FixedTimes, _FixedLessThan, adjust"]}
{"id": "C41", "title": "Saturating arithmetic clamps to the representable range", "statement": "saturate.add and saturate.sub of signed operands return the exact sum or difference clamped to [min, max]; of unsigned operands the sum limited to max and the difference limited to min; a write to a signed saturating variable clamps every + and - of the written tree to the range of the destination. Operands and bounds must fit in 31 bits and have one signedness: a 32-bit sum wraps before the comparison, an unsigned value written to a signed variable becomes the minimum, a negative value written to an unsigned variable is not clamped, and an unsigned operation checks only one of the two bounds.", "quantifier": "every width up to 31 bits, every operand values, bounds and destination", "why_tests_cant": "exponential operand space", "anchors": ["veriloggen/types/saturate.py: add, sub, to_saturate"]}
{"id": "C42", "title": "Indexing and slicing of signals follow Python conventions", "statement": "x[i] with -width <= i < width is bit i, or width+i if negative; x[a:b] is bits a..b-1 with bit a least significant, with negative and omitted bounds as in Python; x[a:b:s] with s > 0 is bits a, a+s, ... below b in that order, and with s < 0, both bounds given and b > 0, bits a, a-|s|, ... above b. Unlike Python, x[::-1] is an empty concatenation, x[7:0:-1] raises, and bounds beyond the width are not clipped.", "quantifier": "every width, bounds, step and value", "why_tests_cant": "unbounded index space", "anchors": ["veriloggen/core/vtypes.py: _Numeric.__getitem__, Slice, Pointer, Cat"]}
{"id": "C43", "title": "Integer literals survive rendering and parsing", "statement": "The text printed for Int(value, width, base, signed) is a Verilog number of that width (32 bits if none is given) and signedness whose value is the given one modulo the width. For values that are not negative (and for x/z digits) the library's own parsers (Int of the text) give back the same value, signedness and base, and the same width if the literal is unsigned; a literal that is unsigned or has no width prints to the same text again. The parsers lose the width of every signed literal and the sign of every negative one.", "quantifier": "every value, width, base and signedness", "why_tests_cant": "unbounded literals", "anchors": ["veriloggen/core/vtypes.py: Int, str_to_value, str_to_width, str_to_signed", "veriloggen/verilog/to_verilog.py: visit_Int"]}
{"id": "C44", "title": "Constant resolution preserves the value of expressions", "statement": "Replacing parameters by constants and folding constant sub-expressions (resolver) succeeds and does not change the Verilog value of an expression (as a condition, or assigned to a variable of any type) under any assignment of the remaining variables, provided no intermediate result is wrapped by its type before or after resolution, concatenations and $signed contain no constants, and folded divisions and arithmetic shifts have non-negative operands. A concatenation of two constants, or a repetition of a constant, is folded to its value if the library knows the width of the right (repeated) operand. Without these conditions the value can change: literals lose their width and signedness, and division, remainder, arithmetic shift and complement of constants follow Python. The parameter loop gives every parameter the value its expression folds to, keeps instance overrides, and ends without error if the parameters do not depend on each other in a circle.", "quantifier": "every expression tree, every constant dictionary, every valuation", "why_tests_cant": "unbounded expressions", "anchors": ["veriloggen/resolver/resolver.py: ConstantVisitor, ReplaceVisitor, ModuleReplaceVisitor._update_const_dict"]}
{"id": "C45", "title": "Generated temporary names never collide", "statement": "Names created by TmpReg/TmpWire/TmpLocalparam/... in a module are pairwise distinct however calls with different prefixes are interleaved.", "quantifier": "every sequence of calls with any prefixes", "why_tests_cant": "unbounded call sequences; prefixes may themselves end in digits", "anchors": ["veriloggen/core/module.py: Module.TmpReg, Module.TmpWire, Module.get_tmp"]}
{"id": "C46", "title": "copy_ports / connect_ports select exactly the requested ports", "statement": "Module.copy_ports/copy_params/connect_params with prefix/postfix/include/exclude copy exactly the objects whose names match an include pattern (or all if none) and no exclude pattern, under the prefixed name, each exactly once.", "quantifier": "every set of ports, every include/exclude sets", "why_tests_cant": "unbounded", "anchors": ["veriloggen/core/module.py: Module.copy_ports, Module.copy_params, Module.connect_ports"]}
{"id": "C47", "title": "Multiplexed assignment helpers implement newest-first priority", "statement": "After any sequence of add_mux(target, cond, value) on a wire, the wire equals the value of the most recently added entry whose condition holds, else the original; add_enable_cond ORs in the enables, add_disable_cond masks them.", "quantifier": "every call sequence, every condition/value", "why_tests_cant": "unbounded call sequences", "anchors": ["veriloggen/types/util.py: add_mux, add_enable_cond, add_disable_cond, overwrite_assign"]}
{"id": "C48", "title": "PatternMux / PatternIf pick the first matching pattern", "statement": "PatternMux(patterns) equals the value of the first pattern whose condition holds, with None as unconditional default; Mux folds constant conditions without changing the value.", "quantifier": "every pattern list, all condition values", "why_tests_cant": "unbounded lists", "anchors": ["veriloggen/core/vtypes.py: PatternMux, PatternIf, Mux"]}
{"id": "C51", "title": "A module defines each name once", "statement": "After any accepted sequence of declarations in a Module, no two ports and no two variables, parameters, functions or instances share a name, except that a port may be redeclared as a wire or reg (in particular OutputReg); a second incompatible declaration of a name raises an error. Not prevented: declaring both a wire and a reg for the same output name.", "quantifier": "every sequence of declaration calls, every name", "why_tests_cant": "The order and mix of declaration kinds is unbounded; a test checks a handful of clashes.", "anchors": ["veriloggen/core/module.py: Module.check_existing_identifier, is_reg, Module.Input, Output, Reg, Wire, OutputReg"]}
{"id": "C52", "title": "DMA write beats carry last flags at the end of each requested burst", "statement": "During a DMA write the write-data beats handed to the AXI channel carry wlast exactly on the final beat of each burst whose length was taken from the request FIFO, in order, no burst is interleaved with another, and the data machine returns to idle exactly when the whole transfer has been handed over; for equal widths, narrower and wider AXI words.", "quantifier": "every transfer length >= 1, RAM contents, wready schedule and request FIFO schedule whose lengths add up to at most the transfer", "why_tests_cant": "the flag depends on two counters that advance at different paces under back-pressure; off-by-one errors need particular schedules", "anchors": ["veriloggen/thread/axim.py: AXIM._synthesize_write_data_fsm_same, _synthesize_write_data_fsm_narrow, _synthesize_write_data_fsm_wide"]}
{"id": "C49", "title": "FSM If/Elif/Else chains and Then select the branch written", "statement": "In an FSM, the calls If(c1)(s1), Elif(c2)(s2), ..., Else(sn) issued for a state execute, at every clock edge at which the machine is in that state, exactly the statements of the first branch whose condition holds (after everything written for the state before), whatever the number of branches; Then() right afterwards repeats the condition under which the branch written last is selected, so Then().goto(d, else_dst=e) or Then().goto_next() jumps exactly when that branch was selected; and a chain If(c1).goto(d1), Elif(c2).goto(d2), Else.goto(d3) jumps to the destination of the first branch that holds, provided no If statement is open in the state. After goto_next, inc or set_index there is nothing left to continue: Else and Elif raise. Disagreement: when an If statement is still open, Else.goto leaves the Else pending, and the next unconditional statement becomes an else branch. Chained calls If(a).If(b) act (statements and jumps) exactly when all conditions of all calls hold.", "quantifier": "every FSM reachable by API calls, every chain of branches, every later call sequence for the jump theorems, every state of all signals", "why_tests_cant": "the selected branch depends on all conditions before it; bookkeeping attributes that survive between calls only show when calls are combined in an unusual order", "anchors": ["veriloggen/fsm/fsm.py: FSM.If, FSM.Elif, FSM.Else, FSM.Then, FSM.goto, FSM.goto_next, FSM._add_statement, FSM._clear_next_kwargs, FSM._clear_last_cond"]}
{"id": "C50", "title": "Keep(m) repeats a statement for m cycles after its condition", "statement": "seq.If(*conds).Delay(d).Keep(m)(*stmts) and fsm.If(*conds).Delay(d).Keep(m)(*stmts): a register assigned by nothing else is assigned by stmts at clock edge u exactly when the conditions held (and, for an FSM, it was in the state the statement was written for) at one of the m edges u-d, ..., u-d-(m-1) with no reset from that edge up to u; otherwise it keeps its value. Right-hand sides are evaluated at edge u, with EagerVal at the latest of these edges; with LazyCond the conditions are those at edge u.", "quantifier": "every Seq or FSM built by API calls before and after, every d >= 0 and m >= 1, every list of conditions (a single condition must be one bit wide unless LazyCond is used) and statements, every run and reset schedule", "why_tests_cant": "the behaviour depends on overlapping windows of past conditions and resets", "anchors": ["veriloggen/seq/seq.py: Seq.Keep, Seq._add_statement", "veriloggen/fsm/fsm.py: FSM.Keep, FSM._add_statement"]}
{"id": "C53", "title": "UART delivers every accepted byte exactly once", "statement": "Connect the txd output of a UartTx to the rxd input of a UartRx with the same number W = int(clockfreq / baudrate) >= 2 of clock cycles per bit, both reset. For every sequence of inputs, the receiver raises valid in cycle t if and only if the transmitter accepted a byte (ready and enable) in cycle t - (10 W + W/2 + 3), and dout then is that byte; so no byte is lost, repeated, reordered or invented. A thread calling send has each value transmitted once, and each call ends after a fixed number of cycles. On the line a byte is a low start bit, the bits lowest first and a high stop bit of W cycles each, and the line is high otherwise. A low pulse that is over in the middle of the start bit is ignored, and a sender with P cycles per bit is understood if W/2 < P, 8 P <= W/2 + 8 W and W/2 + 8 W < 9 P. With W = 1 it is false: a byte 0 is received as 0xC0.", "quantifier": "all W >= 2, all input sequences, all times", "why_tests_cant": "a test simulates one baud rate and a handful of bytes; the timing of sampling and of back-to-back frames must be right for every W and every pattern", "anchors": ["veriloggen/thread/uart.py: mkUartTx, mkUartRx, UartTx.send"]}
{"id": "C54", "title": "AXI4-Lite register slave: ordered transactions and coherent registers", "statement": "AXISLiteRegister, for every behaviour of the bus master and the threads: transactions do not overlap (an address is accepted only when nothing is outstanding, never a write and a read address together; write data only after a write address, from the second cycle after it without waiting; the response is offered exactly from the data until it is taken; read data is offered from the third cycle after a read address, unchanged until it is taken). The read data is the value the addressed register had two cycles after the address; register i is at address i*(datawidth/8). A register changes only by write data for it, by thread operations on it, and, when read with its flag set (write_flag), to its reset value, the flag being cleared. For a register no thread touches, every read returns the word written last. A thread write wins over a bus write in the same cycle. Disagreements: wstrb is ignored; wait_flag overwrites a word that the bus writes and acknowledges in the same cycle; a master that always offers write addresses starves reads.", "quantifier": "for all register counts and data widths, all bus input sequences, all thread operation sequences, all times", "why_tests_cant": "the interleavings of bus handshakes and thread operations are unbounded; tests use one well-behaved master model", "anchors": ["veriloggen/thread/axis.py:244-418", "veriloggen/types/axi.py:2560-2682", "veriloggen/types/axi.py:1527-1541", "veriloggen/types/axi.py:1634-1658"]}
{"id": "C55", "title": "AXI4 register slave: bursts", "statement": "AXISRegister, for every behaviour of the bus master and the threads: the beats of read data transferred are in order those of the accepted read requests, beat k of a request at address a holding register idx(a)+k (wrapping at the mask width), with the value it had between the request and the transfer and no write in between; offered beats stay until taken; as long as beats are outstanding one is offered within two cycles. Word k of a write burst goes to register idx(a)+k; write data is accepted only within a burst and without waiting; one response per burst, offered until taken and never lost. For a register no thread touches every beat is the word written last before the request. Disagreements: a read request of n >= 2 beats is answered with n+1 beats (rlast is computed from the count before its decrement); rid of a beat that is offered and not yet taken changes when the next read address is accepted.", "quantifier": "for all register counts and data widths, all bus input sequences with 8-bit arlen, all thread operation sequences, all times", "why_tests_cant": "burst lengths, stalls and interleavings are unbounded; the tests of the project read single beats", "anchors": ["veriloggen/thread/axis.py:16-241", "veriloggen/types/axi.py:2300-2461", "veriloggen/types/axi.py:1263-1277", "veriloggen/types/axi.py:1424-1452"]}
{"id": "C56", "title": "AXI memory model: requests are served in order, reads return the contents", "statement": "AxiMemoryModel, for every bus master that keeps an address valid until it is accepted: accepted write requests are served in order, each taking the transferred words in order until its count is reached or a word is marked last; the words go to consecutive word addresses (wrapping at addrwidth), the bytes selected by the strobe inside the memory are replaced and, apart from the write intrinsic, nothing else changes the memory; bvalid is raised once per completed request. Read beats transferred are in order those of the accepted read requests, at consecutive word addresses, rlast on the last one, the data being the contents at a time between request and transfer; an offered beat stays until taken. Waiting words are written and outstanding beats are offered within a bound given by the delays and sleep parameters; requests are accepted within a bound if the request queue has room. Disagreements: bvalid is lowered after one cycle whether or not bready is set; with sleep_interval=1 nothing is ever written or read; with req_fifo_addrwidth=1 no request is ever accepted.", "quantifier": "for all configurations (word size, address widths, FIFO sizes, delays, sleep parameters), all bus input sequences, all uses of the write intrinsic, all times", "why_tests_cant": "interleavings of requests, data, stalls and sleep periods are unbounded; the memory model is itself used as the reference in tests", "anchors": ["veriloggen/types/axi.py:2908-3266", "veriloggen/types/axi.py:3283-3299", "veriloggen/types/axi.py:3357-3485"]}
{"id": "C57", "title": "AXI memory model: word-indexed access", "statement": "read_word(word_index, byte_offset, bits) returns the bits 8*byte_offset + word_index*bits ... + bits-1 of the memory and write_word replaces exactly these bits, whenever the word lies in the ceil(bits/8) bytes that are accessed; this holds for all words exactly if bits modulo 8 is 0, 1, 2 or 4, and then a written word is read back and all other words are unchanged. Disagreement: for other widths the bits beyond the accessed bytes are read as 0 and not written.", "quantifier": "for all memory contents, word indices, offsets, widths and data", "why_tests_cant": "the failing widths need a word that crosses a byte boundary; tests use widths 8, 16, 32", "anchors": ["veriloggen/types/axi.py:3301-3355"]}
{"id": "C58", "title": "Dataflow networks: tokens are neither lost, duplicated nor reordered", "statement": "In a network built by Dataflow, the k-th value an output delivers is the value of its expression on the k-th values accepted from the variables (with prev and accumulators taken over the values accepted), whatever the timing of the valid and ready signals, provided that in every cycle the operands of an operator are ready together. This proviso holds if shared operands are shared together (every value used once, pipelines, several uses by the same operator), and for balanced networks of operators of latency 1 whose variables become valid together and whose outputs become ready together; in the latter with outputs always ready, a result is valid exactly its stage number of cycles after the variables. A result not taken is held. Disagreements: when a variable is shared and another arrives late, when two outputs are not ready together, and when a multiplier runs beside a delayed path (even with a common valid and one output), values of a variable are accepted and lost.", "quantifier": "for all networks, functions, latencies, and all sequences of data, valid and ready", "why_tests_cant": "the timings that lose a value depend on stalls and gaps in combination with the shape of the network; tests stall all ports in the same way", "anchors": ["veriloggen/dataflow/dtypes.py:548-618", "veriloggen/dataflow/dtypes.py:693-792", "veriloggen/dataflow/dtypes.py:2042-2078", "veriloggen/dataflow/dtypes.py:2344-2541", "veriloggen/dataflow/dtypes.py:2812-2844"]}
{"id": "C59", "title": "Pipelines: values of one cycle stay together", "statement": "In a Pipeline built from input, stage, accumulators and prev (binary operators, Pointer, Slice, Cat, Repeat, Cond, nested to any depth, constants), a variable on stage n shows in cycle t+n the value that its expression has for the inputs of cycle t - registers are inserted so that values of different cycles are never combined - and is valid exactly if all inputs it is computed from were valid in cycle t; accumulators and prev count valid values only. All outputs of a pipeline without accumulators show the values of the same cycle, max_stage_id cycles later. Disagreements: unary operators in an expression are dropped; with an accumulator on the last stage the other outputs come one cycle earlier; the registers inserted for outputs have the width of the pipeline (32) whatever the width of the value; stage of a constant is 0 in the first cycle.", "quantifier": "for all programs, functions, and all sequences of data and valid", "why_tests_cant": "alignment of every value depends on the shape of all expressions; tests fix a handful of pipelines", "anchors": ["veriloggen/pipeline/pipeline.py:67-98", "veriloggen/pipeline/pipeline.py:181-321", "veriloggen/pipeline/pipeline.py:372-430", "veriloggen/pipeline/pipeline.py:526-656"]}
{"id": "C60", "title": "Pipelines with valid and ready: no token is lost when the outputs stall", "statement": "In a Pipeline whose inputs have valid and ready and are valid together, with the outputs ready together, without accumulators and nested expressions, and in which every variable before the last stage is used or an output, the k-th datum of an output is the value of its expression for the k-th data accepted from the inputs, however the outputs stall; with outputs always ready, a variable of stage n is valid exactly n cycles after the inputs and every datum is accepted when it is offered. For any pipeline the values are right as long as the operands of every register are ready together. Disagreement: nested expressions insert registers that nothing uses (operands are visited again) and that are always ready; after one stalled cycle, data of an input are accepted and lost and the outputs combine data that do not belong together.", "quantifier": "for all programs, functions, and all sequences of data, valid and ready", "why_tests_cant": "needs stalls at the outputs in combination with the shape of the expression", "anchors": ["veriloggen/pipeline/pipeline.py:28-44", "veriloggen/pipeline/pipeline.py:212-299", "veriloggen/pipeline/pipeline.py:368-370", "veriloggen/pipeline/pipeline.py:401-430", "veriloggen/pipeline/pipeline.py:545-585"]}
{"id": "C61", "title": "Child threads are called like functions", "statement": "A thread that starts, joins and resets child threads with th.run(fsm, args), th.join(fsm) and th.reset(fsm), each child in the order run, join, reset, another statement, run, ...: every executed run finds the child in its start state and starts exactly one execution of the child's function with the registers bound to that run's arguments; a child leaves its start state only by a run; join is left only when the child is at its end, and then (and in the cycle after) the child's registers, among them the return value, are those obtained by calling the function once per executed run, in order, with that run's arguments; called is 1 exactly between a run and the reset; and if the bodies and the other statements end, all calls get executed. Positional arguments bind the first parameters, the rest take their defaults. The order matters: reset has no state of its own, so reset directly followed by run loses the start and the next join never returns; run after join without reset is lost and join returns the old result; run while the child runs is lost. Keyword arguments of run always raise an exception (undefined name), and in a second run a missing argument silently keeps its old value.", "quantifier": "for all numbers of children, bodies, argument bindings, sequences of calls in the stated order, durations of the other statements, and cycles", "why_tests_cant": "the result depends on the relative timing of parent and children, of which a simulation shows one; the lost start needs a particular order of calls that no test uses", "anchors": ["veriloggen/thread/thread.py: run, join, reset, _synthesize_run_fsm", "veriloggen/fsm/fsm.py: goto_from, _set_index"]}
{"id": "C62", "title": "A stream run reads its sources, computes and fills its sinks, and join waits for it", "statement": "A thread stream with RAM sources (set_source, set_source_pattern) and RAM sinks (set_sink, set_sink_pattern). After run is executed in a cycle T in which the stream is idle, or in the last cycle of the sources of the previous run (source_join_and_run), each source reads the addresses of the settings last set, in order, one per cycle, and nothing else is read; item k (k below the length of the longest source, shorter sources repeating their last word) is on the inputs of the data path in cycle T+5+k, which are the cycles with ivalid; reduce_reset is 1 with item 0 and 0 with the others. Each sink writes the outputs of the data path whose when condition holds to the addresses of its settings, in order, until it has no address left, and writes nothing else. If run and join alternate, or the run has at least as many items as the pipeline has stages, or the run was started by one source_join_and_run, join does not return before the last write of the run, and it does return. Together: between run and the end of join a sink whose addresses are no more than the accepted items gets exactly the function of the words read, at its addresses, in order. Otherwise the code does less: a short run after source_join, or two source_join_and_run in a row with short runs, lets join return before anything is written; a sink with more addresses than items gets one word more, a repetition of the last item; run during the source phase of another run is lost; a source with size 0 reads 2^(addrwidth+1) words.", "quantifier": "for all numbers of sources and sinks, settings that fit the registers, RAM contents, pipeline depths, data paths, when conditions, sequences of runs and cycles", "why_tests_cant": "the alignment of sources, data path and sinks must hold for every depth and size; tests run one or two sizes, always larger than the depth, so that an early join does not show", "anchors": ["veriloggen/thread/stream.py: run, _synthesize_run, join, source_join_and_run, set_source, set_source_pattern, set_sink, set_sink_pattern, _synthesize_set_source, _synthesize_set_sink, _delay_from_start_to_sink"]}
{"id": "C63", "title": "The Verilog written for a statement does what the statement says", "statement": "to_verilog of a list of statements (Subst, If/Elif/Else, For, While, Case/Casex/When, SingleStatement, SystemTask, TaskCall, Event, Wait, Forever, Delay and tuples of these, over all expression objects) in an always block, an initial block or a function or task body gives one block that means the statements in order, under every interpretation of the expressions and of the statement forms in which sequencing is associative: assignments are blocking in initial blocks, functions, tasks and in the head of a for, and elsewhere as their objects say; each operator object is written with its own operator; Repeat of x is written as repetition of {x}. No block is left directly inside a block, and no else branch is a block around one if unless the text of the condition contains rst or reset. For Verilator the same is written as otherwise for the statements with every Delay, Forever, $dumpfile, $dumpvars and (in initial blocks) $finish replaced by a $write of nothing. Otherwise the code does less: the delay of an assignment in an always block is written as a bare expression where a delay is required, a level in an Event is written without a type, and Wait, Forever and edges inside an always block raise.", "quantifier": "for all statements, expressions, nesting depths and interpretations", "why_tests_cant": "the trees are unbounded; tests compare the text of single examples with stored text, which says nothing about its meaning", "anchors": ["veriloggen/verilog/to_verilog.py: VerilogCommonVisitor, VerilogAlwaysVisitor, VerilogBlockingVisitor, _optimize_block", "veriloggen/core/vtypes.py: If, For, While, Case, When, Wait, Forever, Delay, Event, Subst"]}
{"id": "C64", "title": "Verilog statements survive reading and writing", "statement": "The objects from_verilog makes of a statement mean what the statement means, under every interpretation in which sequencing is associative and the numbers mean what they mean when printed again (C43), if, where assignments are written as blocking ones, all of the assignments are; so does what to_verilog writes for them. The text to_verilog writes for a list of statements whose literals C43 says are stable (integers of either sign, no fractions, no TaskCall, no Event on levels, delays of assignments only outside always blocks and not negative) is read, and then written again without change. Otherwise the code does less: a nonblocking assignment in an initial block or a task becomes a blocking one, fractions are rejected, a TaskCall cannot be written again, and the body of a function or task with n statements is repeated n times, so that only bodies of at most one statement survive.", "quantifier": "for all statements, expressions and interpretations", "why_tests_cant": "the trees are unbounded; the tests of from_verilog read single examples, with functions of one statement", "anchors": ["veriloggen/verilog/from_verilog.py: VerilogReadVisitor (expressions, statements, visit_Function, visit_Task, to_tuple)", "veriloggen/verilog/to_verilog.py: VerilogCommonVisitor, VerilogAlwaysVisitor, VerilogBlockingVisitor"]}
{"id": "C65", "title": "to_verilog writes every module of the design once, and hooks run", "statement": "If every instance is of a module whose name no other instantiated module has, or of a new module that is renamed to a name not in use, and the top module shares its name with no instantiated module, then to_verilog of a module defines every name once, defines exactly the modules that are parts of the design (reached from the top module through instances and generate blocks), and every instance is of the module its module name defines. Every hooked method it calls belongs to a part of the design, and all of them are called if there are no generate blocks. Otherwise the code does less: two modules of one name under different parents, or a renamed module whose new name is taken, leave one of them unwritten, a module named like the top module replaces it, modules instantiated only in the Else of a GenerateIf are not written, and hooks in generate blocks, and of modules instantiated only there, are not called.", "quantifier": "for all sequences of calls that build a hierarchy", "why_tests_cant": "hierarchies are unbounded, and the tests build single ones with names that do not clash", "anchors": ["veriloggen/core/module.py: Module.Instance, GenerateFor, GenerateIf, find_module, get_modules, has_hook, resolve_hook, to_verilog; Generate.get_modules; GenerateIf.Else", "veriloggen/verilog/to_verilog.py: write_verilog"]}
{"id": "C66", "title": "Block, broadcast and packed transfers of multi-bank RAMs", "statement": "MultibankRAM.read_burst_block hands over, for every schedule of rready, the words of the banks in turn, blocksize words a turn, each bank read from bank_addr on with the stride given: word j comes from bank (j / blocksize) mod numbanks and is word (j / (blocksize*numbanks))*blocksize + j mod blocksize of it; the last word is marked and all banks are idle afterwards. write_burst_block stores the valid words at the same places, and nothing else, until length words or one marked last are stored, raises done once and leaves all banks idle. write_burst_bcast stores the same words in every bank. Packed DMA with 2^k banks moves as many packed words as the size needs, at consecutive addresses. Otherwise the code does less: wready of write_burst_block is low in the turns of the first bank although words are stored then, and with a number of banks that is not a power of 2 packed DMA cuts transfers short and stores packed words at the same address.", "quantifier": "for all numbers of banks, block sizes, lengths, strides, memories and ready/valid schedules", "why_tests_cant": "the tests transfer single sizes, never stall in between and ignore wready", "anchors": ["veriloggen/thread/ram.py: MultibankRAM.read_burst_block, write_burst_block, write_burst_bcast, read_burst_packed", "veriloggen/thread/axim.py: _dma_read_packed, _dma_write_packed"]}
{"id": "C67", "title": "AXI stream input into FIFOs", "statement": "AXIStreamInFifo.dma_read(fifo, size): the requests, of any sizes and in any number, claim the beats of the stream in order, size words each (one word if the size is 0), and every FIFO receives exactly the words of its requests, once and in order, for every schedule of the stream and of the readers of the FIFOs. With FIFO words of 2^k stream words each word is 2^k consecutive beats, least significant first, and the last word of a transfer is never lost if the interface is the only writer; with stream words of 2^k FIFO words each beat is cut into 2^k words, least significant first, for sizes that are positive multiples of 2^k as long as the FIFO is not almost full in the cycle after the end of a transfer. Otherwise the code does less: with several FIFOs on one interface, beats offered while the FIFO in use is almost full and another is not are counted although they are not taken; in the wide case the last word of a transfer is dropped when the FIFO is almost full in the cycle after the end, and a size such that neither it nor its successor is a positive multiple of 2^k keeps the interface reading until the size register wraps around; width ratios that are not powers of two are accepted and never deliver a word.", "quantifier": "for all request sequences, streams, FIFO depths, reader behaviours, width ratios 2^k and register widths", "why_tests_cant": "the tests use one FIFO, deep enough never to fill, and sizes that are multiples of the ratio", "anchors": ["veriloggen/thread/axistreamin.py: AXIStreamInFifo._synthesize_read_data_fsm_same, _synthesize_read_data_fsm_narrow, _synthesize_read_data_fsm_wide", "veriloggen/thread/fifo.py: FIFO.enq_rtl"]}
{"id": "C68", "title": "AXI stream output from FIFOs and RAMs", "statement": "AXIStreamOutFifo.dma_write(fifo, size) and write(value, last): with one FIFO, for any sequence of transfers of at least one word and of writes, the beats taken by the consumer are exactly the words asked for, once and in order: size words of the FIFO per transfer with exactly the last beat marked tlast, the written values in between with their own mark; no more words are taken from the FIFO than asked for, a transfer does not stop while the FIFO has words and the consumer is ready, and when the interface is idle everything has been handed to the output registers. With FIFO words of 2^k stream words each word makes 2^k beats, least significant first, the last one of the transfer marked; with stream words of 2^k FIFO words each beat packs 2^k words, least significant first, and ceil(size / 2^k) beats are sent. write_fence returns exactly when its value has been taken by the consumer. AXIStreamOut.dma_write(ram, addr, size) with one RAM sends the words of the burst in order with exactly the last marked and becomes idle exactly then. Otherwise the code does less: with a second FIFO (or RAM) on one interface the requests for it are never taken, and with a second RAM not even the first transfer ends; a transfer of size 0 never ends; with a FIFO with sync=False no beat is marked and the transfer never ends; when the size is not a multiple of 2^k in the wide case, the transfer takes more words from the FIFO than asked for.", "quantifier": "for all request and write sequences, FIFO contents and timings, consumers, RAM contents, width ratios 2^k and register widths", "why_tests_cant": "the tests use one FIFO or RAM per interface with one fixed consumer and sizes that are multiples of the ratio", "anchors": ["veriloggen/thread/axistreamout.py: AXIStreamOutFifo._synthesize_write_data_fsm_same, _synthesize_write_data_fsm_narrow, _synthesize_write_data_fsm_wide, write, write_fence", "veriloggen/thread/axistreamout.py: AXIStreamOut._synthesize_write_data_fsm_same", "veriloggen/types/axi.py: AxiStreamOut.write_data", "veriloggen/thread/fifo.py: FIFO.deq_rtl"]}
{"id": "C69", "title": "Memory read into and written from AXI streams", "statement": "AXIM_for_AXIStreamIn.dma_read(addr, size) and AXIM_for_AXIStreamOut.dma_write(addr, size) (the engines that connect an AXI memory master to an AXI stream): for any sequence of calls of at least one word and any timing of the memory, of the stream and of the request FIFO, the stream is given the words of the read data channel, each once and in order, as one packet per call whose last beat alone carries tlast, and the write data channel is given the words taken from the stream, each once and in order, wlast marking exactly the last word of each burst; the bursts of data have the lengths of the bursts requested on the address channel, in the same order, and none begins before its address was requested; no more words are taken than the calls asked for, a transfer does not stop while both sides are ready, and the machine is idle exactly when all the words of the calls begun have been taken. A call of size 0 breaks this: a read of size 0 never ends, and a write of size 0 takes the size of the next call for the length of a burst and does not end.", "quantifier": "for all sequences of calls, schedules of the request FIFO, memory, stream and consumer, address widths, word sizes and burst lengths", "why_tests_cant": "tests fix one memory model, one consumer and a few sizes; the agreement of the data bursts with the address bursts for every alignment and stall pattern needs an invariant over both machines", "anchors": ["veriloggen/thread/axim_for_axistream.py: AXIM_for_AXIStreamIn._synthesize_read_req_fsm, _synthesize_read_data_fsm", "veriloggen/thread/axim_for_axistream.py: AXIM_for_AXIStreamOut._synthesize_write_req_fsm, _synthesize_write_data_fsm", "veriloggen/thread/axim.py: AXIM._check_4KB_boundary", "veriloggen/types/axi.py: AxiMasterWriteData.write_data, AxiStreamOut.write_data"]}
{"id": "C70", "title": "Thread pools", "statement": "ThreadPool.run, join and reset with one parent thread and tids of threads of the pool that do not change during run: in every cycle every thread of the pool is in the state it would be in if the parent called the threads directly (Thread.run/join/reset) with one more state before and after each run; so pool.run(k, args) starts thread k and no other thread, with its arguments; each thread is executed once for each pool.run of its tid, in program order; when join(k) is left thread k has finished the calls so far and its registers hold their result; and if the bodies terminate so does the parent. In contrast to plain threads reset may be directly followed by run. Outside these conditions the code differs: two parents that are in run in the same cycle start both threads with the arguments of one of them; if the value of the tid expression changes during run the start bit stays set and a later run of another thread starts this one too; run with a tid out of range starts nothing and join with it never returns; a thread that was put into a second pool has its tid overwritten, so that the first pool starts and waits for the wrong threads.", "quantifier": "for all pools, thread bodies, programs of pool calls of the parent, arguments and timings", "why_tests_cant": "the tests run each thread of a pool once from one parent with fixed timing", "anchors": ["veriloggen/thread/pool.py: ThreadPool.run, join, done, reset, ret, to_thread_pool", "veriloggen/thread/thread.py: Thread._synthesize_run_fsm"]}
{"id": "C71", "title": "Submodule connects every port of the child to an object of the right width", "statement": "Submodule(parent, child, ...) makes an instance in which each port of the child is connected exactly once, in order: to the expression given in arg_ports, and otherwise to an object that is added to the parent under prefix and port name, which is a port of the same direction for as_io, a wire for as_wire, and otherwise a register for an input and a wire for the rest, with the signedness of the port. The instance is given exactly the parameters in arg_params, with the values of the arguments in the parent. Constants in the widths of ports are copied as localparams with the values they have in the instance, and an object for a port has the number of bits that the port has in the instance, provided these constants are declared by constants that are copied too. If no name of the parent has the prefix, all names of the parent differ afterwards. Proved otherwise: a localparam in a port width whose value uses a parameter that no port width uses and that is not given is copied with a reference to a name that is not declared; as_io ports (and localparams) read from Verilog text keep their range with names that are not renamed; names of copies are not checked against names of the parent; unknown names in arg_ports and surplus positional arguments are dropped silently; a key of arg_ports that is a regular expression leaves the ports it matches unconnected; and a Parameter or Localparam whose value is a parameter object takes the value and does not follow an override.", "quantifier": "all parents, children, prefixes, arguments, as_io and as_wire patterns, all semantics of the operators of constant expressions, all values of the parent's constants", "why_tests_cant": "tests instantiate a few children with literal widths; here any dependency between constants, any override and any mixture of arguments, ports and wires is covered", "anchors": ["veriloggen/core/submodule.py:13-171", "veriloggen/core/module.py:675-865", "veriloggen/core/module.py:1212-1221", "veriloggen/core/collect_visitor.py:11-91", "veriloggen/core/rename_visitor.py:11-103", "veriloggen/core/vtypes.py:750-772", "veriloggen/verilog/to_verilog.py:553-564"]}
{"id": "C72", "title": "RingBuffer reads give earlier items of the stream, Scratchpad reads the last word written", "statement": "For strm.RingBuffer(a, length) read in the next stage of the pipeline, buf.read(offset) gives for each item the word written d words before (d < length), where offset is (length - d) % length, or -d when length is a power of two and the offset is not narrower than the addresses; it does so with any gaps between items, stalls, and items not written because of enable. For a read diff stages later the same holds for items that come after diff items without a gap and for d + diff <= length. A read that is not enabled, or a stall, keeps the word. A Scratchpad read gives the last word written to the address before the item is in the stage of the read; in the next stage these are the writes of the items up to itself. Words have their sign when the offset is not wider than they are. The code disagrees elsewhere: with the read two or more stages later the second item of a stream (and of each burst) reads at the position of the first; negative offsets with a length that is not a power of two lead to another word whenever they pass address zero; negative offsets narrower than the addresses lead forwards; the buffer itself used as an operand gives the next item's word; negative words narrower than the offset are read as positive; late Scratchpad reads see writes of later items.", "quantifier": "all lengths, widths, stage distances, sequences of items, gaps, stalls, enables and data, initial contents of the RAM", "why_tests_cant": "The tests use length 128, 32 bit data and offsets, and drop the first rows of the output, which is where late reads are wrong.", "anchors": ["veriloggen/stream/stypes.py:4151-4356", "veriloggen/seq/seq.py:139-193", "veriloggen/stream/stream.py:552-595", "veriloggen/types/ram.py:73-91"]}
{"id": "C73", "title": "Stream arithmetic keeps the numeric value of fixed point operands", "statement": "For operands of veriloggen.stream that are variables or constants, each with width, point and signedness, write num(v) for v / 2^point. If both operands are printed with the same signedness, or both are non-negative, a + b and a - b give the exact sum and difference at the larger of the two points, reduced to the width of the result (which keeps the larger integer part, c73_attr); they are exact when the sum fits. Comparisons compare the numbers, if the aligned operands fit the wider of the two printed widths. Times gives the product rounded down to the larger point and reduced to the larger width, whatever the signedness. Divide by a non-zero divisor gives the quotient rounded to zero for integers of the same signedness; Mod gives the remainder with the sign of the dividend at any points if aligned signed operands fit their own width. Sll with a constant amount is exact in its wider result, Sra is the floor division by a power of two, Srl acts on the bits, Uminus negates modulo the width, Cond selects the number for equal points and signedness, Cast rounds down to the new point and reduces to the new width, ReinterpretCast keeps the bits. The code disagrees elsewhere: comparisons and sums of a signed negative and an unsigned operand use the wrong number; a non-negative FixedPoint constant is called signed but printed unsigned, so x < 0.5 is false for every negative x; comparisons lose the bits that aligning shifts out; Cond does not align points; Divide of operands with a point gives the integer quotient at that point, which is too small by 2^point; Divide of a negative by an unsigned number gives |a| / b; Mod and Divide of signed operands with a large difference in points give 0.", "quantifier": "all widths, points and signedness of the operands, all values they can hold, all constants, all attributes of Cast", "why_tests_cant": "The tests use a few widths with equal points and mostly positive data.", "anchors": ["veriloggen/stream/stypes.py:470-1110", "veriloggen/stream/stypes.py:1225-1235", "veriloggen/stream/stypes.py:1425-1545", "veriloggen/stream/stypes.py:1825-1845", "veriloggen/stream/stypes.py:3920-3970", "veriloggen/types/fixed.py:230-300", "veriloggen/stream/div.py:26-163"]}
{"id": "C74", "title": "The window of a LineBuffer holds the words of the last lines", "statement": "For strm.LineBuffer(shape, memlens, data, head_initvals, tail_initvals, shift_cond, rotate_conds) of any number of dimensions, whose head and tail values are addresses below memlen, memlen fits the type of the data and tail is not directly behind head: all words form one queue, in which a line is shape[0] registers and the (tail - head) % memlen words of a RAM (memlen if zero), a plane is shape[1] lines and the words of a RAM of the next dimension, and so on. An item with shift_cond appends its word and drops the oldest one; an item with the rotate condition of dimension r turns every block of that level by one word; others change nothing; stalls change nothing. When an item is two stages past the buffer, get_window(index) gives the word at the place of index in the queue after that item; with shifts only in two dimensions get_window of (x, y) gives the word shifted in (w-1-x) + (h-1-y) * (w + depth) shifts before. Rotating a dimension by the size of its blocks brings the window back. get_window(number) counts the indices with the first component fastest. The code disagrees elsewhere: head and tail have the width of the data, so longer lines are counted modulo 2^width; svalid is not used, so a cycle without an item shifts if the wire of shift_cond is set; a shift_cond of more than one bit without rotate_conds moves the window without writing the RAMs when it is even; with tail directly behind head the length of a line depends on stalls.", "quantifier": "all shapes of all numbers of dimensions, RAM lengths, head and tail values, data types, sequences of items with at most one condition each, stalls, initial contents of the RAMs", "why_tests_cant": "The tests use 1x1, 3x3 and 1x1x1 windows of 32 bit words with head 0 and tail memlen - 1.", "anchors": ["veriloggen/stream/stypes.py:4469-4726", "veriloggen/types/ram.py:73-91", "veriloggen/seq/seq.py:139-193"]}
{"id": "C75", "title": "Multi-cycle stream operators: ReduceMul, ReduceDiv and DivideMultiCycle behave like one-cycle operators of a stalled stream", "statement": "ReduceMul, ReduceDiv and DivideMultiCycle need several cycles per item and stop the whole stream through internal_oready meanwhile. Whenever the stream is ready, ReduceMul holds exactly what a one-cycle accumulator would hold that multiplies every item the stream took (dropping `point` bits of each product), with reset, size, interval and enable as in the other accumulators; ReduceDiv likewise with the quotient towards zero; DivideMultiCycle's output is what Divide gives for the last item taken. Without reset, size and interval ReduceMul of integers holds initval times the product of all items taken, modulo the width. After an item is taken the stream is not ready for exactly II-1 cycles (3, width+3, width+2), whatever the inputs, and then as ready as the rest of the stream; a cycle that takes no item does not stop it. Several such operators in one stream do not block each other: among any M cycles, M the longest interval, all are idle in one. Disagreements: ReduceMul's default initval 0 makes the product 0 for ever; initval is not shifted by the point, so with initval 1 a fixed-point product loses `point` bits at the first item; ReduceDiv does not shift the quotient by the point; in stream.Stream itself these operators raise AttributeError (no internal_oready).", "quantifier": "all widths, signednesses, points, initial values, sizes, intervals and enable/reset settings, all sequences of inputs and stalls, any initial contents of the multiplier and the divider, any number of operators in one stream", "why_tests_cant": "the tests run one operator with one width and never stall or combine; the interplay of the counter with stalls, enables and intervals and the alignment with the pipeline depth for every width cannot be enumerated", "anchors": ["veriloggen/stream/stypes.py:838-920", "veriloggen/stream/stypes.py:3188-3507", "veriloggen/thread/stream.py:86-93", "veriloggen/types/util.py:91-100"]}
{"id": "C76", "title": "Thread streams with FIFOs: set_source_fifo, set_sink_fifo and the stalls they cause", "statement": "A stream in which some sources read FIFOs and some sinks write FIFOs stalls (`oready` is 0) exactly when the sources are busy and the FIFO of one that still has to read is empty, or when the sinks are busy and the FIFO of one is almost full. In a stalled cycle no word leaves or enters a FIFO through the stream, no RAM is written, and sources, sinks and data path keep their state. Between the start of a run and the return of a join after it, the FIFO of a source hands out exactly as many words as were set, in the order in which they were put in, never while empty and never outside a run; each sink writes the results of exactly these items (and of the words its RAM sources have) in order, whatever the timing of the FIFOs; a FIFO sink with no more words than accepted items puts all of them into its FIFO and drops none. join returns no earlier than 6 + depth + items unstalled cycles after the start, and if the FIFOs that stall the stream are eventually served it does return. Disagreements: with a FIFO made with sync=False the first word is read but skipped; a sink FIFO of address width 1 is always almost full, and the stream stalls for ever; a set_sink_fifo for the next job while a stalled job is running changes the running job; a sink set to more words than the run has items gives one more word, which is dropped when the FIFO is almost full.", "quantifier": "all numbers of sources and sinks, kinds (RAM, pattern, FIFO), widths, sizes, pipeline depths and data paths; all timings with which the other side fills and drains the FIFOs; any number of runs one after another", "why_tests_cant": "a test runs one program with one timing of the FIFOs; a word lost or repeated at a stall in one particular cycle of the source or sink FSM shows up only for that timing, and the number of timings is unbounded", "anchors": ["veriloggen/thread/stream.py:943-976", "veriloggen/thread/stream.py:1294-1329", "veriloggen/thread/stream.py:1652-1805", "veriloggen/thread/stream.py:2493-2525", "veriloggen/thread/stream.py:2600-2649", "veriloggen/thread/stream.py:3173-3201", "veriloggen/thread/stream.py:3262-3305", "veriloggen/thread/fifo.py:119-158", "veriloggen/types/util.py:91-100"]}
{"id": "C77", "title": "Modules: to_verilog writes and from_verilog reads parameters, ports, declarations, instances and generate blocks completely", "statement": "to_verilog writes a module as a definition with the module's name, whose parameters, ports (in the order of io_variable, an output together with its register), declarations with widths, dimensions and signs, continuous assignments, always and initial blocks, functions, tasks, instances with their parameters and ports, and generate blocks (for and if, nested, with their names) mean exactly what the objects mean; nothing is lost, repeated or moved between blocks. This holds for every module whose continuous assignments have no delays, whose instances have all listed ports connected, in which no variable is declared twice, the register of an output has the output's width and sign, and no register of a generate block or function has the name of an output. from_verilog reads a module definition, with ports declared in the head or in the old style among the items, to a module object with the same meaning, provided that no parameter's value is a bare name, no generate construct stands in the else branch of another, function bodies are single statements, and only variables that can be signed are; so reading and writing again keeps the meaning. Disagreements: delays of assign are not written; the register of an output is written with the output's sign; a register of a generate block named like an output disappears, one of a function makes writing fail; an unconnected port of an instance can be read but not written; of an if in the else branch of a generate if both branches come into effect, of a for there the body once; an initial block with an if or for inside a generate block cannot be read to something that can be written; a localparam whose value is a parameter is given the parameter's default value for ever.", "quantifier": "all modules: any items, widths, dimensions, expressions, statements, nesting of generate blocks; all interpretations of operators, literals and statements", "why_tests_cant": "tests compare the text of a few designs; a declaration dropped or a block flattened only in one combination of kinds and nesting shows in no other design", "anchors": ["veriloggen/verilog/to_verilog.py:553-815", "veriloggen/verilog/from_verilog.py:154-405", "veriloggen/verilog/from_verilog.py:592-677", "veriloggen/verilog/from_verilog.py:714-907", "veriloggen/core/module.py:50-181", "veriloggen/core/module.py:1179-1198", "veriloggen/core/module.py:1335-1503", "veriloggen/core/vtypes.py:746-776"]}
{"id": "C78", "title": "What to_verilog writes for a module is read by from_verilog and written again without change", "statement": "If to_verilog writes a module (with for_verilator off), from_verilog reads the text it printed, and to_verilog writes the module that was read as the same text: the same parameters, the same ports in the same order, each output with its register, and the same items in the same order, with all widths, dimensions, signs, statements, instances, functions and generate blocks (a minus sign of a number counting as an operator, as the parser reads it). This holds for every module without float literals in which no generate construct stands in the else branch of another, no initial block inside a generate block has an if or for, functions and tasks have at most one statement, no parameter's value is the bare name of a parameter, branches and loop bodies are made with tuples as the API does, and instances of known modules only name ports and parameters that exist. Disagreements: an if or for in the else branch of a generate if is gone after one round, and a module with an if in an initial block of a generate block is written but cannot be read.", "quantifier": "all modules of this kind, all visitors' settings with for_verilator off, all libraries of modules that are read with it", "why_tests_cant": "a stable text for the tested designs says nothing about another nesting or another kind of declaration, for which one round may drop or move an item", "anchors": ["veriloggen/verilog/to_verilog.py:553-815", "veriloggen/verilog/from_verilog.py:154-405", "veriloggen/verilog/from_verilog.py:592-677", "veriloggen/verilog/from_verilog.py:714-907"]}
{"id": "C79", "title": "A substream computes its child stream in every run, and can be used as an operator of the parent", "statement": "`sub = parent.substream(child)` with `sub.to_source(name, value)` for every source of the child and `sub.from_sink(name)`: whatever the child did before, in a run of the parent (the parent is busy, no other stream uses the child) whose first item carries reduce_reset, the value read from a sink `pipeline_depth() + 1` advances after an item entered the operator is the value of the child's graph for exactly the items of this run so far, for all items and all stalls of either stream. As an operator of the parent it meets the contract of C24 with latency `pipeline_depth() + 1`, ignores everything before the first valid item, and has a reset wherever the child has one, so that substreams may be nested; a stateless child depends on the last valid operands only. `busy` of a stream is true exactly from the first cycle of `source_busy` until the stream has advanced `pipeline_depth() + 2` times after its last one, and whatever stalls one of the streams stalls both while the parent is busy. Two uses do not work: a child that is used twice in one parent has one set of registers, the operator implemented later wins; and a substream of a substream is not stalled with its parents at the end of a run if there are enough stages before the operator (`reset_delay` is still 0 when `source_busy` of the child is made), so that a stall can lose an item.", "quantifier": "all child graphs of stateless operators and accumulators with reset, all operands, all earlier histories of the child, all stall schedules, all runs and all items of a run", "why_tests_cant": "The result depends on stalls of both streams at any time and on what the child did in earlier runs; tests run a few streams without stalls inside the substream.", "anchors": ["veriloggen/stream/stypes.py:3975-4038", "veriloggen/stream/stypes.py:4106-4145", "veriloggen/stream/stypes.py:2795-2822", "veriloggen/thread/stream.py:451-470", "veriloggen/thread/stream.py:3827-3869", "veriloggen/types/util.py:91-100"]}
{"id": "C80", "title": "Reductions with a valid signal report each block once, and ReduceArgMax gives the position of the maximum", "statement": "`data, valid = ReduceAddValid(x, size)` (also Sub, Max, Min, Custom): whoever takes `data` for the records with `valid = 1` gets the reduction, from `initval`, of every complete block of `size` enabled elements, in order and each exactly once, from power-up on or from a reset that comes with an enabled record on, for all stalls and empty cycles; `CounterValid(size)` has `valid = 1` for exactly the records with the value `size - 1`. `index, value = ReduceArgMax(x, size)` (and ReduceArgMin, with all comparisons turned around): one advance after the last record of a block `index` is the position in the block of the first maximum, whatever came before the block, if the maximum is above `initval` and not at position 0; if it is at position 0 the index is 0 provided `value` was not already equal to the maximum before the block. It does not hold in these cases: with `enable` and no `reset` a disabled record after a block reports the block again; an `interval` is not passed on to `valid`, and neither is the `step` of a counter; and a block whose first element equals the value that was shown before (the maximum of the block before, or `initval`) keeps the index of the block before.", "quantifier": "all sizes, all operand values and types that fit, all enable and reset patterns of the stated kind, all earlier histories, all stalls and empty cycles", "why_tests_cant": "The index is wrong only when two neighbouring blocks happen to have the same maximum in certain positions; whether valid is repeated depends on which arguments are given and on the enable pattern.", "anchors": ["veriloggen/stream/stypes.py:3689-3787", "veriloggen/stream/stypes.py:4728-4765", "veriloggen/stream/stypes.py:5046-5091", "veriloggen/stream/stypes.py:2314-2372"]}
{"id": "C81", "title": "Every item of a stream run sees the parameter set before that run", "statement": "In a thread stream, every item of a run is computed with the value given by the last `set_parameter(name, value)` executed before the run was started; a `set_parameter` executed while the run is going on only concerns the next run, also when the next run is chained with `source_join_and_run`. The same holds for a source given by `set_source_empty(name, value)`. With FIFOs it holds however the stream stalls, provided there is a `join` between two runs. What the code does less: if a run is chained to the previous one and the stream is stalled in the cycle after, the last item of the previous run is computed with the parameter of the next one, because the parameter register does not wait for `oready`; and a source for which the program also uses `set_source` cannot be empty: its items are the word at the output of the RAM, whatever value was set.", "quantifier": "all streams (any number of sources and sinks, any pipeline depth, any address generators that keep the contracts), all programs of set_parameter/set_source_empty/run/join in any cycles, all stalls, all runs and items", "why_tests_cant": "whether the wrong parameter is used depends on the cycle in which the stream is stalled relative to the restart; tests use one parameter value per simulation and RAMs, which never stall", "anchors": ["veriloggen/thread/stream.py:415-448 parameter", "veriloggen/thread/stream.py:978-1024 set_source_empty", "veriloggen/thread/stream.py:1406-1442 set_parameter", "veriloggen/thread/stream.py:1652-1805 run", "veriloggen/thread/stream.py:2037-2051 _synthesize_set_source", "veriloggen/stream/stypes.py:2795-2822 Variable.write"]}
{"id": "C82", "title": "A call in a thread gives each parameter the argument Python gives it", "statement": "When a thread calls a user function `f(a, ..., key=value, ...)` whose parameters are ordinary ones, with literal default values, and perhaps `*args`, and Python accepts the call, then at the start of the body every parameter has the value of its positional argument, of its keyword argument, or its default value, and `*args`, if it is not empty, is the list of the positional arguments that remain, in order. Numbers are those in the state of the call, taken before any parameter is written and cut to the data width; other objects are passed themselves; no variable of the caller changes. A call is rejected exactly if it has too many positional arguments, two values for one parameter, or an unknown keyword. What the code does less: a missing argument is not noticed, and the name then stands for an object of that name around the place where the thread was started; an empty `*args` is not bound at all; a default value is evaluated anew at each call in the scope of the called function, so that for `def f(p, q=p)` it is the value that the register of `p` had before the call; positional-only parameters are not seen; keyword-only parameters and `**kwargs` are rejected.", "quantifier": "all function signatures, all argument lists and keywords, all expressions as arguments, all data widths and register contents", "why_tests_cant": "a missing argument shows only if no object of that name is visible where the thread was started, and the stale value of a default only from the second call on; tests call functions with matching arguments", "anchors": ["veriloggen/thread/compiler.py:601-683 _call_Name_function", "veriloggen/thread/compiler.py:1144-1161 getVariable", "veriloggen/thread/compiler.py:1190-1211 setArgBind, setVarargBind", "veriloggen/thread/scope.py:55-89"]}
{"id": "C83", "title": "Read-modify-write of a RAM in a stream gives what the items give one after the other", "statement": "A thread stream with `read_modify_write_RAM(name, raddrs, waddr, op, op_args, when)` leaves in the RAM what is there if for every item in turn the words at `raddrs` are read, `op` is applied and the result is written at `waddr`, however the stream stalls and whatever cycles have no item, also when consecutive items concern the same word, provided that (1) an item which reads the word written by the item two before it also reads the address of the item in between, (2) an item that is not written (`when` false) does not have an address that the next item reads, (3) of consecutive items, addresses of the same word are equal. What the code does less: none of these conditions is checked or necessary in a correct circuit. Updates of words A, B, A in consecutive items lose the first update of A (a histogram of 3, 5, 3 counts one 3), because the RAM is read in the same cycle in which the item two before is written and only the item just before is forwarded; the result of an item with `when` false is forwarded though it is never written; and addresses are compared before they are cut to the address width of the RAM.", "quantifier": "all operators, all numbers of read addresses, all sequences of items and empty cycles, all stalls, all memory contents and address widths", "why_tests_cant": "the repository's tests use a ramp that saturates at the last bin, so that no address comes back after exactly one other; whether an update is lost depends on the distance of equal addresses in the data", "anchors": ["veriloggen/thread/stream.py:563-624 read_modify_write_RAM", "veriloggen/thread/stream.py:3350-3377 _setup_read_ram", "veriloggen/thread/stream.py:3465-3489 _setup_write_ram", "veriloggen/stream/stypes.py:1914-1994 ForwardDest, ForwardSource", "veriloggen/stream/stypes.py:4784-4901 ReadRAM, WriteRAM", "veriloggen/types/ram.py:73-88"]}
{"id": "C84", "title": "read_fifo, write_fifo and read_RAM in a stream give every item its word, and no word is lost or doubled", "statement": "In a thread stream with `read_fifo(name, when)` and `write_fifo(name, data, when)` of latency 1, every item for which the `when` of the read is true gets the next word of the FIFO, an item for which it is false sees the last word read, and the words put into the other FIFO are the results of the items for which the `when` of the write is true, in order, none lost and none twice; this holds whenever words are put into the one FIFO and taken from the other, and however the stream stalls. The stream stalls for no other reason than an item that wants to read an empty FIFO or to write one with at most one free place. With `read_RAM` of any latency each item that reads gets the word at its address and others the last word read, however the stream stalls, except with latency 2 and a `when`, where it holds only without stalls. What the code does less: with latency 2 and a `when`, the delayed `when` does not wait for the stream, so after a stall an item may get the old content of the data register; and if the FIFO is made with `sync=False`, an item gets the word after the one it takes out.", "quantifier": "all FIFO sizes, all functions, all distances of the two operators, all sequences of items, `when`, stalls and accesses of the other sides; all latencies, words and stalls for RAMs", "why_tests_cant": "whether a word is lost depends on the cycle in which the FIFO runs empty or full relative to the items in the stages and to other stalls; tests use a few fixed patterns", "anchors": ["veriloggen/thread/stream.py:626-693 read_fifo, write_fifo", "veriloggen/thread/stream.py:3350-3377 _setup_read_ram", "veriloggen/thread/stream.py:3563-3591 _setup_read_fifo", "veriloggen/thread/stream.py:3666-3691 _setup_write_fifo", "veriloggen/stream/stypes.py:4784-4859 ReadRAM", "veriloggen/stream/stypes.py:4912-5043 ReadFIFO, WriteFIFO", "veriloggen/thread/fifo.py:120-160 enq_rtl, deq_rtl", "veriloggen/types/util.py:91-100 add_disable_cond"]}
{"id": "C85", "title": "Bit operators of streams work on the bits of their operands", "statement": "For values x, y of a stream of any width and signedness: `Pointer(x, i)` is bit i of x; `Slice(x, msb, lsb)` has the bits lsb..msb; `Cat` puts its operands side by side, the first highest; `Repeat(x, n)` is n copies; `Unot` complements every bit; `And`, `Or`, `Xor`, `Xnor` combine the bits, where the narrower operand is extended with its sign bit if both are signed and with zeros if both are unsigned or the narrower one is unsigned; `Land`, `Lor` and `Ulnot` look at whether the operands are nonzero; `Uand`, `Unand`, `Uor`, `Unor`, `Uxor`, `Uxnor` are the conjunction, disjunction and parity of all bits and their complements; chunk k of `Split(x, width)` has bits k*width.. of x, the last one filled with the sign bit if chunks are signed and with zeros if not, and if the width of x is a multiple, `Cat` of the chunks has all bits of x. `eval()` of the reductions of an integer gives what the circuit gives for `Uand`, `Unand`, `Uor` and `Unor`. What the code does less: `eval()` of `Uxor` and `Uxnor` of an integer is always the opposite; a signed operand that is narrower than an unsigned one is extended with zeros; and `Split(x, num_chunks=n)` makes a slice whose upper bound is below its lower bound if n - 1 chunks of the rounded-up width already cover x.", "quantifier": "all widths, signs, values, bit positions, numbers of copies and chunk widths", "why_tests_cant": "tests use one or two widths and values; sign extension, padding of the last chunk and parity go wrong only for some combinations", "anchors": ["veriloggen/stream/stypes.py:1123-1191 _BinaryLogicalOperator, And, Xor, Xnor, Or", "veriloggen/stream/stypes.py:1194-1387 Land, Lor, Ulnot, Unot, Uand, Unand, Uor, Unor, Uxor, Uxnor", "veriloggen/stream/stypes.py:1462-1485 ReinterpretCast", "veriloggen/stream/stypes.py:1580-1671 Pointer, Slice", "veriloggen/stream/stypes.py:1673-1753 Split", "veriloggen/stream/stypes.py:1756-1826 Cat, Repeat"]}
{"id": "C86", "title": "A shared variable holds what threads write, and no update made in a critical section is lost", "statement": "For `Shared(v)` written by any number of threads with `write(value)`, `write(value, i)` or `write(value, i, j)`: at the edge at which a thread is in the state of its call, the register, the bit or the element named by the part gets the value (cut to its width) unless a call compiled later writes the same bits at that edge; all other bits stay; the thread goes to its next state. If threads write only while they hold a mutex, then the variable does not change while a thread holds the mutex and does not write itself, so that a value computed from what it read in its critical section is written to a variable that still has that content; and if every write adds something to what was read in the same critical section, the register is the sum of everything added by all threads, none lost (modulo its width). Without the mutex two threads that update at the same edge lose one update: the call compiled later wins.", "quantifier": "all numbers of threads and calls, all programs around them, all executions without reset since the beginning, all widths and array lengths", "why_tests_cant": "lost updates depend on the interleaving of the threads, of which a simulation shows one", "anchors": ["veriloggen/thread/ttypes.py:294-347 Shared", "veriloggen/thread/ttypes.py:107-224 Mutex", "veriloggen/seq/seq.py:601-609 make_code"]}
{"id": "C87", "title": "Tables give the entry of the address, and `Predicate` and `Reg` keep the last selected value", "statement": "A `SyncROM` with or without enable gives, from the edge after a read on, the entry at the address read, cut to the data width, until the next enabled read of an address inside the table; when no data width is given the width chosen keeps every entry (read as a signed number; also as an unsigned one if it is not negative). An `AsyncROM` gives the entry of its address; but for an address outside the table (possible unless the length is a power of two, and with a single entry) it is a latch and gives the entry read before. A stream `LUT` of two or more entries is an operator of latency 1 for all stalls; if the number of entries is a power of two it gives the entry of the address (modulo the number of entries) in its width and signedness; with any other number of entries the address is cut to floor(log2 n) bits, so that entries from that power of two on are never read and their addresses give entries from the start of the table. `Predicate(data, when)` is an operator of latency 1: the data of the last valid item for which `when` held, 0 before. A `Reg` holds the last value written by the stream in this way or by a thread, and in the same cycle the thread wins.", "quantifier": "all tables, addresses, widths, enables, stalls, sequences of items and of writes by threads", "why_tests_cant": "tests use tables of power-of-two length and in-range addresses, and a few stall patterns", "anchors": ["veriloggen/types/rom.py:11-97 mkROMDefinition, SyncROM, AsyncROM", "veriloggen/stream/stypes.py:2121-2172 LUT", "veriloggen/stream/stypes.py:4728-4781 Predicate, Reg", "veriloggen/core/vtypes.py:124-132 get_width"]}
{"id": "C88", "title": "Names in a thread function denote the variables they denote in Python", "statement": "Take a thread function, with functions called in it (not recursive), started with integers as arguments, whose local variables (parameters and assigned names) have names different from the objects visible where the thread was started. If Python runs it to its end without values leaving the range of the signed registers, the FSM of the thread reaches its last state and stays there; then every local variable that is bound in Python has a register of its own which holds its value, and the return register, which is none of these, holds the value returned. Variables of different functions and of different calls are different, even with equal names. (Loops and jumps as in C19.) Without the condition on names it fails: a local variable that is read, in the text, before its first assignment, which loops allow, is taken to be the object outside. A call whose function ends without a value gives the value of the previous execution of that call where Python gives `None`. A function that calls itself is never compiled.", "quantifier": "all functions built from assignments to one or several targets, augmented assignments, if, while, for over range, break, continue, return and calls; all arguments, widths and clock cycles", "why_tests_cant": "tests run a few functions; which names are confused depends on the order of statements, loops and calls", "anchors": ["veriloggen/thread/scope.py:19-240 ScopeFrameList, ScopeFrame", "veriloggen/thread/compiler.py:133-212 visit_Assign, visit_AugAssign", "veriloggen/thread/compiler.py:601-710 _call_Name_function", "veriloggen/thread/compiler.py:804-834 visit_Return", "veriloggen/thread/compiler.py:1132-1161 makeVariableReg, getVariable"]}
{"id": "C89", "title": "Expressions in a thread function have the values they have in Python", "statement": "Take an expression in a thread function built from numbers, variables, unary and binary integer operators, chained comparisons, `and`, `or`, `not` and conditional expressions, and suppose Python gives it the integer z. Then `x = e` stores z (its low bits, if it does not fit), and `if e` and `while e` go the way Python goes, provided that: values that are compared, divided, shifted to the right or tested fit the width in which they are computed (that of the widest operand, 32 for numbers); a division has operands of equal sign or is exact; `and` and `or` whose value is used have truth values as operands; truth values are not added to numbers whose sign matters later; in a chain only the last comparison is between two numbers. Each condition is needed: `//` and `%` round towards 0; `/` silently gives the integer part of the quotient; `a or b` gives 1; `5 < 3 < x` forgets the first comparison; `(a < b) - 1 < 0` is never true; `(a + b) >> 1` loses the carry.", "quantifier": "all expressions, all values of the variables, all widths", "why_tests_cant": "the width and the sign in which a subexpression is computed depend on everything around it", "anchors": ["veriloggen/thread/compiler.py:836-1002 visit_UnaryOp, visit_BoolOp, visit_BinOp, visit_Compare", "veriloggen/thread/compiler.py:214-219 visit_IfExp", "veriloggen/thread/operator.py:11-112"]}
{"id": "C90", "title": "Memory images: `set_memory` puts every element at its address, and the memory model loads it", "statement": "Let the word width of a memory image be a multiple of 8 up to 64 bits, and let it divide or be divided by the width of the elements of an array. `set_memory(mem, src, mem_datawidth, src_datawidth, mem_offset, num_align_words)` with the address of a word puts element k of row i at bit `8 * mem_offset + (i * S + k) * src_datawidth`, where S is the row length, rounded up as asked by `num_align_words`; the padding is zero and no other bit changes. The file written by `to_memory_image` is read by `$readmemh` as the same bits; the memory of `AxiMemoryModel` made for the image is large enough and holds them, and `read_word` gives the elements back. Without an image word k of the memory is k. `aligned_shape` and `shape_to_memory_size` round up to whole words and blocks. Not so: rows that are longer than a word and do not fill words raise an exception (`num_pack - src.shape[-1]` is negative); other offsets are rounded down silently; if the widths do not divide each other bits are lost; `to_memory_image` ignores a `length` larger than the array, cannot write big endian, raises if the last word is incomplete and loses what is beyond 64 bits of a word.", "quantifier": "all arrays, widths up to 64, offsets, alignments, sizes of the memory", "why_tests_cant": "the layout depends on widths, shape, alignment and offset together, the examples use few combinations", "anchors": ["veriloggen/types/axi.py:4553-4615 to_memory_image", "veriloggen/types/axi.py:4618-4747 aligned_shape, shape_to_length, shape_to_memory_size, set_memory, align", "veriloggen/types/axi.py:2993-3045 AxiMemoryModel.__init__, _make_img"]}
{"id": "C91", "title": "A dataflow graph, scheduled and implemented, delivers the values of its expressions after its longest path", "statement": "For an acyclic dataflow graph whose operators all depend on a variable, `Dataflow.implement` does not raise; all outputs are in one stage d, which is the longest path from a variable to an output with the latencies of the operators as lengths. In the network it builds, with the delays inserted and the operators implemented in the order of the allocator, the k-th value delivered at an output is the value of the expression of the user on the first k + 1 values accepted from the variables, whatever the timing, if the operands of an operator are ready together; for operators of latency 1 it suffices that the variables become valid together and the outputs ready together, and if the outputs are always ready an output is valid exactly d cycles after the variables. Disagreement: an operator on constants only gets no start stage and end stage 0, whatever its latency; its register is not valid in the first cycle, so that for `x + (1 + 2)` beside `x + y` the first value of `y` is taken and lost though both variables are always valid and both outputs always ready.", "quantifier": "for all acyclic graphs (any sharing, accumulators included), inputs, sequences of valid and ready", "why_tests_cant": "the graphs and timings are unbounded; the tests of the dataflow part use a handful of graphs with variables in every operator", "anchors": ["veriloggen/dataflow/scheduler.py:8-167", "veriloggen/dataflow/dataflow.py:84-163 implement", "veriloggen/dataflow/allocator.py:10-25", "veriloggen/dataflow/visitor.py:167-217", "veriloggen/dataflow/dtypes.py:536-618, 2010-2040, 2799-2844"]}
{"id": "C92", "title": "AXI memory with several ports: the ports share one memory and do not disturb each other", "statement": "AxiMultiportMemoryModel, for bus masters that keep an address valid until it is accepted: every port serves its requests, words and beats in order like the memory with one port (C56), within the same bounds of time, whatever happens at the other ports. In a cycle each port writes at most one word; a byte gets the value of the last port that writes it in this cycle, unless the `write` intrinsic writes it, and nothing else changes the memory. A byte that a port has written and that is not written again is what any port reads whose request comes in that cycle or later. Disagreement: two such memories (or two memories with one port) in one module raise an exception, because the names of the counters do not contain the name of the memory.", "quantifier": "all numbers of ports, configurations, input sequences of all ports, uses of the write intrinsic, times", "why_tests_cant": "the ports interleave in unboundedly many ways; the tests have two ports and little contention", "anchors": ["veriloggen/types/axi.py:3488-3862 AxiMultiportMemoryModel", "veriloggen/types/axi.py:3047-3063"]}
{"id": "C93", "title": "Dataflow quotient and remainder: value and latency", "statement": "`Divide` and `Mod` of the dataflow library. Whatever the operator holds and whenever its consumers are ready, the result of the operands taken at one step is at the output `width + 5` steps later and valid if and only if they were; a waiting result is kept. For signed operands the quotient is rounded towards zero at as many bits after the point as the dividend has more than the divisor (none otherwise), modulo the width of the result; the same holds for operands of any signedness that are not negative and need one bit less than the result. The remainder of integers that meet the same condition is exact, that of signed integers with a positive divisor has the sign of the dividend. Disagreements: with the most negative dividend the quotient has the wrong sign; an unsigned dividend with the top bit set, divided by 2 or more, always gives a wrong quotient (255 / 2 = 0 in 8 bits); a negative signed dividend and an unsigned divisor give a quotient without its sign; with a negative divisor the remainder has the wrong sign (7 mod -3 = -1, -7 mod -3 = 1); with points the remainder is too large by a factor of 2 to the point.", "quantifier": "all widths, points, signednesses, operands, contents of the registers and sequences of ready and valid", "why_tests_cant": "the tests divide a few small positive numbers of equal width", "anchors": ["veriloggen/dataflow/dtypes.py:794-938 Divide", "veriloggen/dataflow/dtypes.py:942-1083 Mod", "veriloggen/dataflow/div.py:6-152"]}
{"id": "C94", "title": "Dataflow accumulators: reductions, counters, pulses", "statement": "`ReduceAdd`, `ReduceSub`, `ReduceMul`, `Counter`, `Pulse` and the reductions with a valid signal of the dataflow library, seen record by record. Without `size` the output of a record is the reduction, from `initval`, of the enabled elements up to it since the last `reset` (the element of the `reset` record counts if it is enabled), modulo the width of the result. With a `size` of n and no `reset` it is the reduction of the current block of n enabled elements; a `size` of 0 makes blocks of 2^(width of size + 1). `Counter` gives initval, initval + step, ..., starting again after n enabled records, and initval - step before the first one. `Pulse` is 1 exactly when the number of enabled records so far is a positive multiple of n; without `enable` and `reset` the valid signal of a reduction is therefore 1 exactly at every n-th record, with the reduction of the last n elements. Disagreements: with `size`, the element that comes with `reset` is in no block, because the next one is taken as the first of a block again; with `size` and `enable`, a `reset` in a record that is not enabled empties the accumulator but not the count, so the block ends with fewer than n elements; with `enable`, valid stays 1 in the records that are not enabled after the end of a block; `ReduceMul` with the default initval is always 0; a negative element is added to a wider unsigned accumulator as the positive number with the same bits.", "quantifier": "all widths, signednesses, initial values, steps, sizes and sequences of records", "why_tests_cant": "the tests run one sequence of a few small positive elements per class, without reset and enable together with a size", "anchors": ["veriloggen/dataflow/dtypes.py:2344-2541 _Accumulator", "veriloggen/dataflow/dtypes.py:2544-2569 ReduceAdd, ReduceSub, ReduceMul", "veriloggen/dataflow/dtypes.py:2596-2636 Counter, Pulse, _ReduceValid"]}
{"id": "C95", "title": "Multi-pattern sink: which word goes to which address", "statement": "`set_sink_multipattern` accepts exactly the non-empty lists of at most the maximal number of patterns, each of at most the maximal length, with as many offsets. With accepted offsets and patterns of the same sizes. Without a `when` condition the words of the unstalled cycles are written, in order, to the addresses of the patterns one after the other, and the sink is done exactly after the last address. Disagreements: with a `when` condition the word of the k-th unstalled cycle belongs to the k-th address, and is dropped together with its address if the condition does not hold, so addresses are left out and the sink is done with fewer words than there are addresses (`set_sink_pattern` moves on only when the condition holds); patterns of different sizes and a second start without setting the patterns again go wrong as for the source (C33).", "quantifier": "every nonempty list of patterns of equal sizes between 1 and 2^addrwidth-1 of at most the maximal length, every stall schedule, every `when` schedule, every sequence of words", "why_tests_cant": "the tests of multi-pattern sinks have no `when` condition; the stall schedules are unbounded", "anchors": ["veriloggen/thread/stream.py:1151-1250 Stream.set_sink_multipattern", "veriloggen/thread/stream.py:2915-3101 Stream._synthesize_set_sink_multipattern"]}
{"id": "C96", "title": "A parallel block of a thread is one simultaneous assignment", "statement": "A thread with blocks `set_parallel() ... unset_parallel()` computes what the program computes in which each block is replaced by one simultaneous assignment of everything that is assigned in the text of the block: all right-hand sides are evaluated with the values from before the block, the last assignment to a register wins, and the block takes one clock cycle. Disagreements with the text of the block: the condition of an `if` is ignored and both branches are executed; the body of a `while` is executed exactly once; a call gives the old contents of the return register; a `break` under an `if` is always taken; without `unset_parallel` the thread stays in the state of the block and makes its assignments again in every clock cycle.", "quantifier": "every thread program of C19 with parallel blocks of assignments, conditionals, loops and calls, all values, all run lengths", "why_tests_cant": "the only test of set_parallel has two blocks of plain assignments; programs are unbounded", "anchors": ["veriloggen/thread/ttypes.py:91-98 set_parallel, unset_parallel", "veriloggen/thread/compiler.py:1251-1264 setFsm, incFsmCount", "veriloggen/thread/compiler.py:221-293 visit_If, visit_While", "veriloggen/fsm/fsm.py:133-167 goto_next, goto_from"]}
{"id": "C97", "title": "Resolving an always block keeps what it does when the loop headers are constant, and breaks other loops", "statement": "`resolver.resolve` replaces a `For` inside an `If` by one copy of its body for each iteration. If start, condition and step of every `For` of an always block are constant but for loop variables, and loop variables are read only inside their loop and set only by its header, then the resolved block ends exactly if the block ends, and gives every variable and array element except the loop variables the same value, by blocking and nonblocking assignments. `For(i(lo), i < W, i.inc())` becomes exactly the copies for lo, ..., W - 1. A `For` directly in the always block is not unrolled. Disagreements: with a variable bound the condition `i < n` becomes `start < n`, and the loop never ends; with a variable step `i + n` becomes `start + n`; after an unrolled loop its variable has its old value; an assignment to the loop variable in the body becomes an assignment to a number; nested loops with one variable raise an exception.", "quantifier": "every always block of assignments, If, While and For over variables, arrays and parameters, all parameter values, all states, all numbers of iterations", "why_tests_cant": "the only test of loops in the resolver has the bound WIDTH = 8 and compares text; blocks, values and bounds are unbounded, and no test has a variable bound", "anchors": ["veriloggen/resolver/resolver.py:360-397 ReplaceVisitor.visit_For", "veriloggen/resolver/resolver.py:218-242 visit__BinaryOperator, visit__UnaryOperator", "veriloggen/resolver/resolver.py:330-358 visit_Subst, visit_If", "veriloggen/resolver/resolver.py:490-493 ForReplaceVisitor", "veriloggen/resolver/resolver.py:619-624 ModuleReplaceVisitor.visit_Always"]}
{"id": "C98", "title": "Serial AXI memory: words go where the requests say, reads return the contents, and when it fails", "statement": "AxiSerialMultiportMemoryModel, for bus masters that keep addresses and data valid and stable until they are accepted and make no write request while they refuse a response. At each port words are transferred only for requests accepted before, in order, to consecutive word addresses (wrapping at addrwidth). The memory is that in which every word is written when it is transferred, by its strobe, in any order of the ports within a cycle; a byte differs from that only if in the previous cycle a port offered a word for it that was not taken, and then has the value in that word; a byte stays as written until a word for it is offered. A response is raised after a word marked last and stays until taken. Read beats are in order those of the accepted read requests, rlast on the last one, the data being the contents at a time between request and transfer; an offered beat stays until taken. Words are taken, beats offered and requests accepted within bounds given by the delays and the sleep parameters. Disagreements: if a write request is made while a response is refused, the FSM goes on without taking the address: the request is never accepted, even after the response is taken; if the data is offered with the request it is written behind the previous burst. As long as a read is asked for in every cycle no write request is accepted.", "quantifier": "all numbers of ports, configurations, input sequences of all ports, orders of the writes of one cycle, times", "why_tests_cant": "no test uses the class; the interleavings of requests, stalls, sleep periods and ports are unbounded", "anchors": ["veriloggen/types/axi.py:4237-4519 AxiSerialMultiportMemoryModel", "veriloggen/fsm/fsm.py:667-690 FSM.make_case"]}
{"id": "C99", "title": "CustomCounter: values of the tuple, reset, stalls and what is ignored", "statement": "`CustomCounter(func, initvals, args, reset, width_list, point_list, signed_list)` returns one value for every initial value; `width_list`, `point_list` or `signed_list` with another number of entries is an error, entries not given are 32 bits, point 0 and signed; `func` must return as many expressions. For variables without a point: in every record with `reset` the values are the initial values of this record, in every other record they are the values that `func` gives for the previous ones and the arguments of the record, each modulo the width of its variable and with its signedness; so k records after a reset `func` has been applied k times. A stalled cycle changes nothing. Disagreements: without `reset` the initial values are never used and the counter starts from 0; a variable with a point p shows its contents times 2^p (modulo its width), never its contents if they are not 0; arguments beyond the number of variables are dropped, and with fewer arguments `func` is called with the reset signal as one argument more; unlike the other accumulators the counter also counts in cycles that are not valid.", "quantifier": "all numbers, widths, points and signs of variables, functions, initial values, arguments and sequences of cycles", "why_tests_cant": "the one test has two variables of 32 bits, initial values 0, two constant arguments and no point", "anchors": ["veriloggen/stream/stypes.py:3788-3907 _CustomCounter", "veriloggen/stream/stypes.py:3910-3925 CustomCounter", "veriloggen/stream/stypes.py:1420-1456 Cast", "veriloggen/stream/stypes.py:1619-1635 Slice"]}
{"id": "C100", "title": "Sums and averages of several stream values, absolute values and signs", "statement": "For integer operands (no point). `PlusN` of values of one signedness and any widths is their sum modulo the greatest width, with that signedness. `Average` of n = 2^k values of one type is the floor of sum / n, of another number of unsigned values also the floor, and of another number of signed values the quotient rounded towards zero, where the sum is taken modulo the width of one operand. `AverageRound`, when the sums fit, is the nearest integer to the average for n = 2^k or unsigned values (halves up), and (sum + n/2) / n rounded towards zero for other numbers of signed values. `Sign` is not 0 exactly for negative values, `Complement2` is the negation modulo the width, `Abs` the absolute value except for the least value of a signed type, which stays as it is. Disagreements: `PlusN` of an unsigned value and a narrower negative one is never their sum; `Average(x, x)` is never x if 2x does not fit; `AverageRound` of n copies of -1 is 0 if n is not a power of two.", "quantifier": "all numbers of operands, all widths, both signednesses and all values", "why_tests_cant": "the tests use a few fixed numbers of small non-negative 32-bit operands whose sums do not overflow", "anchors": ["veriloggen/stream/stypes.py:2461-2478 _PlusN", "veriloggen/stream/stypes.py:1502-1544 _SpecialOperator", "veriloggen/stream/stypes.py:2659-2673 Average, AverageRound", "veriloggen/stream/stypes.py:2175-2234 Complement2, Abs, Sign", "veriloggen/core/vtypes.py:1864-1879 Complement2, Abs, Sign"]}
{"id": "C101", "title": "Clocks and resets of a test bench, in Verilog and for Verilator", "statement": "The block added by `setup_clock(m, clk, hperiod)` with hperiod > 0 keeps the clock low for hperiod time units, high for the next hperiod and so on for ever; it rises exactly at the odd multiples of hperiod; with hperiod 0 time never passes. The block added by `setup_reset(m, reset, *statement, period, polarity)` keeps the reset inactive for the delays of the statements and one period, active for one period and inactive for ever after; a period of at least 2 * hperiod contains a rising edge. In the program that `to_verilator_cpp` renders, time advances by the greatest common divisor of all half periods and periods; at the evaluation at time t a clock is high exactly if t / hperiod is even, a reset is active exactly from period to before 2 * period, and every other input is 0; with sim_time > 0 evaluations are made up to the first one at sim_time or later. Disagreements: at every time the clock for Verilator is the opposite of the clock of the Verilog test bench; delays in the statements shift the reset in Verilog only; none of the statements given to `setup_reset` becomes an initial value of the Verilator program.", "quantifier": "all numbers of clocks and resets with distinct names, half periods, periods, polarities, statements and times", "why_tests_cant": "tests look at the text for the default half period 5 and period 100, and simulate with one simulator", "anchors": ["veriloggen/simulation/simulation.py:61-104 setup_clock, setup_reset", "veriloggen/simulation/simulation.py:445-502 to_verilator_cpp", "veriloggen/simulation/verilator_template.cpp:35-85"]}
{"id": "C102", "title": "Merging one Seq into another keeps the behaviour of both", "statement": "`a.update(b)` raises exactly if `a` has been implemented already, or if `b` is another Seq that is neither implemented nor merged and the two differ in module, clock or reset or have the same name. After a merge, at every clock edge without reset, a register assigned by no executed statement of either keeps its value; otherwise the smallest delay with an executed assignment in either Seq decides, and within it the last assignment of `b`, else of `a`. With reset asserted all registers of both that declare an initial value take it and all others keep their values, provided some register declares one. If no register belongs to both, the module with the merged block makes the same step as the module with two separate blocks. Disagreement: not so with reset asserted if only one of the two has registers with an initial value: the registers of the other follow their statements in a separate block and are frozen after the merge. The source adds no block to the module whatever calls are made on it later, and merging it again changes nothing.", "quantifier": "all pairs of Seq objects built by any sequences of API calls, all register values, all clock edges", "why_tests_cant": "tests merge the managers of a few streams and never observe a register without initial value during reset", "anchors": ["veriloggen/seq/seq.py:327-360 update", "veriloggen/seq/seq.py:363-393 implement, make_always", "veriloggen/stream/stream.py:230", "veriloggen/dataflow/dataflow.py:157"]}
{"id": "C103", "title": "split_read_write gives each memory port the channels of its half and nothing else", "statement": "After `r, w = split_read_write(m, ports, prefix, read_prefix, write_prefix)` with the ports of `copy_sim_ports`, in every settled state: an output of the design of a read channel (AR, R) of `prefix` is seen with its value under the read prefix and as 0 under the write prefix, one of a write channel (AW, W, B) the other way round, and any other output as 0 under both; an input of a read channel has the value given under the read prefix, one of a write channel the value given under the write prefix. No name is taken for both halves. Exactly the inputs of these channels and the copies of the outputs are driven, each once; the copies of inputs are left to the memory ports. The call raises exactly if a new name is taken or made twice; otherwise the dictionaries have the prefixed names of all ports as keys. Disagreements: all signals of another interface whose name continues `prefix` by `_r...` are taken for read channels, its write channels included; with `copy_sim_ports(use_wire=True)` no input of the design is driven at all.", "quantifier": "all lists of ports, names, prefixes and values of all signals", "why_tests_cant": "the one test has a single AXI interface and default prefixes", "anchors": ["veriloggen/types/axi.py:4750-4792 split_read_write", "veriloggen/core/vtypes.py:581-592 connect"]}
{"id": "C104", "title": "The IP-XACT description names the right clocks, resets, buses and address ranges", "statement": "For a module with given `clk_ports` and `rst_ports`, `to_ipxact` describes each once the given clocks and the input ports that clock a bus; the description of a clock names as ASSOCIATED_BUSIF exactly the buses it clocks, in order, so a bus clocked by an input is named by the description of its clock only and a bus clocked otherwise by none; ASSOCIATED_RESET holds the resets given for the clock, first, and the input ports that reset one of its buses, none repeated. The resets described are, each once, the given ones with their polarity and the input ports that reset a bus, active high. A port of width w has a vector of w bits down to 0. The memory map of a slave with n registers has a power of two as range, at least 4096 and at least n, and contains all registers if they fit into 4096 bytes. Disagreement: the range counts registers, not bytes: with 32-bit registers the last one is inside exactly if n <= 1024.", "quantifier": "all lists of buses, given ports, numbers and sizes of registers", "why_tests_cant": "tests generate a component for one clock, one reset and few registers, and nothing reads the file", "anchors": ["veriloggen/types/ipxact.py:64-90 to_ipxact", "veriloggen/types/componentgen.py:146-161, 395-432 clocks and resets", "veriloggen/types/componentgen.py:598-633 mkMemoryMap", "veriloggen/types/componentgen.py:689-700 mkPortSignal"]}
{"id": "C105", "title": "print in a thread shows its arguments, separated by spaces", "statement": "A call of `print` in a thread displays one line: the texts of its arguments in order with single spaces between them, whatever the other arguments are. A string without percent signs is shown as it is, an integer in decimal, a fixed-point value with a point that is not negative as the real number raw / 2^point, a tuple as its elements, `form % values` with one value for every directive as the formatted text (`%%` a percent sign, fixed-point values of any point as the number they stand for), an f-string as its texts and values (in decimal unless a specification ending in a letter is given). The compiler raises exactly if a specification of an f-string is empty or nested. Disagreements: a fixed-point value with a negative point printed without a format is shown as raw * 2^point instead of raw * 2^-point; a directive in a plain string takes the value of the next argument, for which none is left; a specification without a letter (`f\"{x:5}b\"`) takes the first character of the text that follows as its letter.", "quantifier": "all lists of arguments, all values, all ways to show a value", "why_tests_cant": "tests print a few integers with few formats, and compare the Verilog text", "anchors": ["veriloggen/thread/compiler.py:450-545 _call_Name_print", "veriloggen/thread/compiler.py:547-555 _print_binop_mod", "veriloggen/thread/compiler.py:557-575 _print_f_strings"]}
{"id": "C106", "title": "An AXI slave reports every request once, with its address and length", "statement": "For an `AxiSlave` with any number of calls of `pull_request`, `pull_write_request` and `pull_read_request`, any conditions and any bus master: a call for writes reports a write exactly in the cycle after a write address is transferred, with that address and awlen + 1 beats; a call of `pull_read_request` reports a read exactly in the cycle after a read address is transferred, likewise, and a call of `pull_request` does unless a write address is transferred in that cycle, which cannot happen if all calls are of `pull_request`. Nothing is reported after reset, nothing of the wrong kind, never a write and a read together; address and length stay until the next transfer. An address is transferred only if it was offered in the cycle before, a write address only while no response is pending, and no channel transfers in two consecutive cycles. A write address offered for three cycles is accepted in the second or third if the call then waits for it and no response is pending, a read address offered for two cycles if the call waits (for `pull_request`: if no write address was offered in the first). A response is pending exactly from the cycle after the last write data until it is taken; the identifiers of response and read data are those of the last transfer of the channel. Disagreements: with `pull_request` no read address is accepted as long as write addresses are offered, even if they are not accepted; a request accepted for one call is reported by all calls of the kind, whatever their conditions; with `pull_read_request` on the same slave a read can be lost for `pull_request`.", "quantifier": "all numbers and kinds of calls, conditions, inputs and cycles", "why_tests_cant": "tests drive one call with one master; overlapping writes and reads and several calls are not tried", "anchors": ["veriloggen/types/axi.py:2407-2537 pull_request, pull_write_request, pull_read_request", "veriloggen/types/axi.py:2376-2392 AxiSlave.__init__", "veriloggen/types/axi.py:36-45 _connect_ready", "veriloggen/types/axi.py:2631-2753 AxiLiteSlave"]}
{"id": "C107", "title": "equals compares expressions by structure", "statement": "`vtypes.equals(a, b)` (and the method `equals`) holds for expressions of the same structure over the same variables, is symmetric, and is false for values of different types. If it holds for two expressions without `Cond`, whose `Int` have one width, base and signedness and whose concatenations have one number of parts, the expressions are the same: same operators in the same places, same variables, same constants. Two concatenations are equal exactly if their parts are equal as far as the shorter one goes. Disagreements: any two `Cond` are equal, `Cond(c, a, b)` and `Cond(c, b, a)` for instance; a `Cat` equals every longer one that begins with its parts, so the relation is not transitive; width, base and signedness of `Int` are not compared.", "quantifier": "all pairs of expressions of any depth", "why_tests_cant": "no test calls equals; the pairs of expressions are unbounded", "anchors": ["veriloggen/core/vtypes.py:193-213 equals", "veriloggen/core/vtypes.py:223-241 VeriloggenNode.equals", "veriloggen/core/vtypes.py:1563-1569, 1830-1839 Cond"]}
{"id": "C108", "title": "copy and copy_pattern use one stream for a pair of RAMs", "statement": "In a Python process, after a call of `copy` (or of `copy_pattern`), whatever calls follow, the same function for RAMs of the same names uses the same stream and makes no other; different pairs of RAM names have different streams if the names of the sources contain no underscore; if all calls copy from RAMs of one module, all streams used are of this module; a process using only one of the two functions never raises. Disagreements: the dictionaries of streams do not know modules, so when the stream for two RAM names has been made in one module, a call for RAMs of these names in another module uses that stream; `copy` and `copy_pattern` name their streams alike, so after one of them the first call of the other for the same RAMs raises.", "quantifier": "all sequences of calls for any RAMs and modules", "why_tests_cant": "tests build one module with one pair of RAMs in a process", "anchors": ["veriloggen/thread/util.py:8-37 copy", "veriloggen/thread/util.py:40-63 copy_pattern", "veriloggen/thread/stream.py:84 Stream.__init__"]}
{"id": "C109", "title": "Reset of registers assigned by bits, slices and concatenations", "statement": "If the statements of a Seq or FSM assign bits (`r[i]`), slices or concatenations of registers, then after a clock edge with the reset asserted every assigned bit of a register with an initial value has that bit of the initial value (below bit 32 if bits or slices of the register are targets), whichever way and however often it is assigned; a bit that is in no target keeps its value; a register without initial value that is in no concatenation keeps its value. Disagreements: the parts of a register without initial value in a concatenation become x at the reset; a bit target above bit 31 is reset to 0 whatever the initial value (e.g. -1) says; the generator raises exactly if some bit target is of a register whose initial value is a `vtypes.Int` (a slice or the whole register is accepted).", "quantifier": "all lists of targets with constant positions, all registers and initial values, all values before the reset", "why_tests_cant": "tests assign few parts of small registers and look at one initial value", "anchors": ["veriloggen/seq/reset_visitor.py:11-80 ResetVisitor", "veriloggen/seq/seq.py:612-618 make_reset", "veriloggen/seq/subst_visitor.py:69-76", "veriloggen/fsm/fsm.py:714-752 make_reset"]}
{"id": "C110", "title": "Reset statements handed to make_always", "statement": "After a clock edge with the reset asserted: in a Seq, targets with an initial value have it whatever `make_always(reset=...)` was given, and registers without initial value have the value of the last statement given for them; in an FSM, the first statement given for a register (or bit, or slice) decides, if no other part of this register is a target or given. Disagreements: for a register with an initial value Seq ignores the statement given and FSM ignores the initial value; in an FSM a statement given for a register is overwritten in every bit that is a target of its own.", "quantifier": "all statements given, all targets without concatenations, all initial values and values before the reset", "why_tests_cant": "tests give reset statements only for registers without initial value, or none", "anchors": ["veriloggen/seq/seq.py:371-393 Seq.make_always", "veriloggen/fsm/fsm.py:396-411 FSM.make_always", "veriloggen/fsm/fsm.py:714-754 FSM.make_reset"]}
