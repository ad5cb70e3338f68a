# Formal model of veriloggen: design

The code in `/repo` is a Python library that builds Verilog.  Two kinds of code are modelled:

* **builder code** (what Python does when the API is called): `Seq`, `FSM`, the thread
  compiler, the schedulers, name generation, slicing, literals, fixed point, the resolver.
  Modelled as total Lean functions, branch by branch, with Python `raise` as `none`/`error`.
* **generated hardware** (what the emitted `always @(posedge CLK)` blocks do): FIFO, skid
  buffer, RAM, divider, multiplier, mutex, AXI channels.  Modelled as `init`/`step` machines:
  one `step` is one clock edge, all right-hand sides read the pre-edge state
  (non-blocking assignment), later statements win.

Property theorems live in `lean/Verif/Props/*.lean`, specifications next to them, model
definitions in `lean/Verif/Model/*.lean`, and helper lemmas in `lean/Verif/Lemmas/*.lean`
or private to the property file.  Every model definition cites the file and lines it models.

## Trusted base

* Lean 4.33.0 kernel.  Axioms used by the theorems: only `propext`, `Classical.choice`,
  `Quot.sound` (every theorem named in `MANIFEST.json`, checked with `#print axioms`).  No
  `sorry`, no own axioms, no `native_decide`/`bv_decide`.  `decide` and `decide +kernel` appear
  only in examples and in concrete counterexamples.
* The reading of Verilog-2001 semantics for the constructs the generator emits:
  non-blocking assignment with last-write-wins (`Model/Hdl`), sizes and signs of expressions
  (`Model/VExpr`, `Model/Vlog`: IEEE 1364-2005, 5.4 and 5.5), the spelling of literals and
  selects (`Model/Literal`, `Model/Index`).  The simulator, `x`/`z` values, races between clock
  domains and timing are not modelled.
* The transcription of Python to Lean, checked by citation (every definition of the model cites
  file and lines) and by seeded faults (`seeded/LOG.jsonl`: each line is a wrong program, the
  claim it breaks and the theorems that stop proving).

## Plan per property

| id | modelled | proof |
|----|----------|-------|
| C01 | `mkFifoDefinition`: head, tail, mem, flags, one step per clock | refinement to a list queue, induction over the input trace |
| C02 | `thread.FIFO` count register and registered enqueue path | invariant count = queue length, in-flight word bound |
| C03 | `make_skidbuffer` registers, chains | refinement to a list, induction over trace and chain length |
| C04 | `mkMultiplierCore` pipelines | pipeline = delayed function, product fits the result width |
| C05,C06 | the divider text stage by stage on 2W-bit vectors | loop invariant of restoring division; pipeline lemma |
| C07 | `mkRAMDefinition` write/read ports | history induction |
| C08,C09 | `read_burst`/`write_burst` FSM and registers | invariant relating remaining length to delivered prefix |
| C10 | bank select / local address arithmetic | bijection + simulation by a flat array |
| C11-C15 | `Seq` builder state and emitted statement list | induction on builder calls / on time |
| C16-C18 | `FSM` builder (body, jump tables), `make_case`, `make_if`, delayed states | as above |
| C19,C20 | `CompileVisitor` + `ScopeFrameList` producing an FSM | simulation in both directions against a big-step semantics of the statements |
| C21,C22 | `Mutex` for any number of threads | inductive invariant over synchronous steps |
| C23 | `Barrier` + its mutex | inductive invariant |
| C24,C25 | `ASAPScheduler`, delay insertion, valid chain | induction on the graph, then on time; operators enter by a contract derived from their registers |
| C26-C30 | stream operators | fold / arithmetic |
| C31-C33 | pattern address generators | odometer invariant; C33 holds for equal sizes, negation otherwise |
| C34 | `_check_4KB_boundary` and the request loop | well-founded induction on the rest size |
| C35,C36 | AXI channel registers, outstanding counter | trace induction |
| C37,C38,C52 | DMA width conversion, descriptor packing, last flags | stream machines composed with C08/C09; bit-vector arithmetic |
| C39-C41 | fixed point and saturation | trees of Verilog expressions, integer arithmetic |
| C42,C43 | indexing, literals | list/bit and digit-string round trips |
| C44 | resolver | structural induction on expressions |
| C45-C48,C51 | naming, copying, mux helpers | induction on call sequences |
| C49 | `If/Elif/Else/Then` of the FSM builder | induction on the chain, on top of C16 |
| C50 | `Keep` of both builders | induction on the rounds, on top of C12, C13, C18 |
| C53 | `thread/uart.py` | closed form of both machines in a frame, strong induction over time for the link |
| C54 | `thread/axis.py: AXISLiteRegister`, `types/axi.py: AxiLiteSlave` | phases of the bus defined by the transfers; the state of the slave in each phase by induction over time |
| C55 | `thread/axis.py: AXISRegister`, `types/axi.py: AxiSlave` | queue of expected beats and open write burst as observers; invariant relating them to the slave's counters |
| C56 | `types/axi.py: AxiMemoryModel` | an inductive relation says what serving requests and words means; ghost lists follow the write FSM; the read side like C55 on top of the FIFO invariant of C01 |
| C57 | `types/axi.py: read_word, write_word` | bit by bit with `Nat.testBit`, memory as one string of bits |
| C58 | `dataflow/dtypes.py: _implement` of all operators, `_connect_ready`, `_Prev`, `_Accumulator` | run over time, `ready` as a recursion over the sinks; tokens taken = tokens delivered + tokens in the pipeline; stages have equal valid and ready by induction from the last stage |
| C59 | `pipeline/pipeline.py: Pipeline, DataVisitor, _PipelineVariable` | the builder as a function from calls to a list of registers; what a list of registers computes by recursion over the list (`dens`); the visitor preserves this and the stages; registers over time by induction on the stage |
| C60 | the same with `ready` | the registers as a network of C58; its values are those of C59; no register is left over, so C58's lockstep applies |
| C61 | `thread/thread.py: run, join, reset, _synthesize_run_fsm` | the calls of the parent as a list; status of each child read off the call order, invariant relating it to the child's phase and registers |
| C62 | `thread/stream.py: run, join, source_join_and_run, set_source, set_source_pattern, set_sink, set_sink_pattern` | control over time: every cycle is idle or in the source phase of one run; contracts of the address generators proved for each kind; sinks run the same phase `depth + 2` cycles later; `busy` from the falling edges of `sink_busy` |
| C63 | `verilog/to_verilog.py` on expressions and statements | meaning of object trees and syntax trees in any algebra with associative sequencing, mutual induction over the trees; blocks flattened and else-branches unwrapped by the laws of sequencing |
| C64 | `verilog/from_verilog.py` on expressions, statements, functions and tasks | the same meaning; a predicate for the syntax trees that reading and writing leaves as they are, which everything written satisfies (C43 for the numbers) |
| C65 | `core/module.py`: hierarchy, `get_modules`, hooks | invariant of the calls: everything instantiated is reached by the walk and names are different; the walk collects what it reaches |
| C66 | block, broadcast and packed transfers in `thread/ram.py`, `thread/axim.py` | invariant of the FSM and the burst machines of all banks after k words, in terms of round, bank and offset |
| C67 | `AXIStreamInFifo` in `thread/axistreamin.py` | invariants over whole histories from reset: words stored, the output register and the pieces still to come are the beats taken; beats taken and the remaining size add up to the requests; the FIFO of C02 attached |
| C68 | `AXIStreamOutFifo`, `AXIStreamOut` in `thread/axistreamout.py` | invariants over whole histories from reset: beats taken, the output register, the word read and the pieces still to come are the beats asked for; the burst of C08 attached for RAMs; negative theorems for several operations, size 0, `sync=False` FIFOs and rounded sizes |
| C69 | `AXIM_for_AXIStreamIn`, `AXIM_for_AXIStreamOut` in `thread/axim_for_axistream.py` | invariants over whole histories from reset as for C68; for writes the entries of the request FIFO are tagged as sizes or burst lengths, and the request machine of C34 is shown to enter a size followed by the bursts of a partition of it; negative theorems for size 0 |
| C70 | `ThreadPool` in `thread/pool.py` | machine with any number of parents, the `start` register and the threads; a simulation relation with the machine of C61 for one parent gives the theorems; negative theorems for two parents, a changing `tid`, a `tid` out of range |
| C71 | `Submodule` in `core/submodule.py`, with the `copy_*` methods, `CollectVisitor` and `RenameVisitor` | function from the objects of the parent, the child and the arguments to the objects added and the arguments of the instance; values of constants are any solution of the declarations, operators and conversions any functions; induction over the order of the declarations of the child |
| C72 | `RingBuffer`, `Scratchpad` and their reads in `stream/stypes.py` | machine with the valid chain, `waddr`, the RAM, the registers of `seq.Prev`, the read register; inputs per cycle | words written so far as a list (ghost of the statement), the slot of each of the last `length` words as invariant, the valid chain and `Prev` as shift registers that move with `senable`; address arithmetic modulo powers of two |
| C73 | attributes and `_implement` of the arithmetic classes of `stream/stypes.py` | Verilog expressions (`VExpr` of C11) built as `_implement` does, evaluated with the sizing rules; multiplier and divider of C24 as functions | rational `num v p = v / 2^p`; printed width and signedness of aligned operands computed once, then modular arithmetic per operator; floor and truncation over ℚ |
| C74 | `LineBuffer` and `_LineBufferOut` in `stream/stypes.py` | machine with the window registers, `head`, `tail`, the RAMs and their read registers of every dimension, the registers of `seq.Prev`; any number of dimensions | ghost state with the words of each RAM in their order, invariant with the item in the next stage pending; nested blocks as lists, a shift or rotation moves each block by one word (induction on the level); addresses as a sequence with a period |
| C75 | `ReduceMul`, `ReduceDiv`, `DivideMultiCycle` | A simulation between the operator with `ii_count` and the accumulator of C26: while the counter is not 0 the arithmetic unit holds the operands of the last item. The unit is the multiplier of C04 or the divider of C05 and C06. Stalls by the counter alone; several counters by the longest remaining time. |
| C76 | `thread/stream.py: set_source_fifo, set_sink_fifo, run, join`, `oready` | The stream with stalls, seen in its unstalled cycles only, is a stream of C62 (`flat`), except for `busy_reg` and the settings, which do not wait; invariant `Rel`. FIFOs by the representation of C07. Then the theorems of C62 carry over; a FIFO is never read empty because the source would have stalled. |
| C77 | `verilog/to_verilog.py: VerilogModuleVisitor`, `verilog/from_verilog.py` (module level) | A module means its parameters, its ports with the registers of outputs, and a tree of items (`MMod`), for any interpretation of expressions and statements as in C63/C64. `Sem.modV` gives the meaning of objects, `Sem.modA` of a tree. Writing (`c77_write`) by induction over the items, with the generate statements of nested blocks merged (`unGen`) and the parameters moved to the front; reading (`c77_read`) by induction with the table of ports computed from the port list and then the declarations among the items (`fold_new`, `fold_mem`). |
| C78 | `verilog/to_verilog.py`, `verilog/from_verilog.py` (module level, both together) | `parsedMod` is a tree after printing and parsing (a negative number is an operator). By mutual induction over items (`back_item`, `back_items`): what was written is read, whatever parameters are known, as items that are written as the same tree, enter no ports, and declare variables of the same kinds and names; parameters (`backP`) and ports (`backIO`) separately. At module level the table of ports and the registers of outputs are shown to be those of the first module. |
| C79 | `stream/stypes.py` (`Substream`, `_SubstreamOutput`), `thread/stream.py` (`Substream`) | The child is a scheduled graph of C24 with its own circuit; the operator is the set of registers it writes. Invariant: the records the child receives are the operands of the parent, one advance later. A reset in the first item makes the value independent of all earlier records (induction over the graph). |
| C80 | `stream/stypes.py` (`_ReduceValid`, `CounterValid`, `ReduceArgMax/Min`, `Predicate`, `_Prev`) | The reduction and its pulse run side by side; invariant: both have the same position in the block. For the index: the value it has after the next advance changes exactly with a record that changes the reduction; a scan over the block then finds the first maximum. |
| C81 | `thread/stream.py` `parameter`, `set_parameter`, `set_source_empty` | Two registers added beside the machines of C62 and C76; `source_start` is 1 only in the cycle after a start, and the next start comes no earlier than the end of the sources, so that the register keeps its value until the last item is in the data path; with stalls the `join` keeps the starts apart. The results of a job follow from C62 with a data path that takes the parameter. Two negative theorems with witnesses. |
| C82 | `thread/compiler.py` `_call_Name_function`, `setArgBind`, `setVarargBind` | The three loops are shown to bind a list of items with distinct names in turn; a name bound last in a frame is found, its register is new and so is not written by later assignments of the state. Python's rule is stated by positions and keywords (`Accepts`), without the loops. |
| C83 | `thread/stream.py` `read_modify_write_RAM`; `stream/stypes.py` `ReadRAM`, `WriteRAM`, `ForwardDest`, `ForwardSource` | Invariant: the memory with the writes of the two items on the way applied is the sequential result, and the operands in the middle stage are the words of the memory after the older of them. The conditions (`Safe`) are on the sequence of items; each of them is shown to be needed. |
| C84 | `thread/stream.py` `read_fifo`, `write_fifo`, `_setup_read_fifo`, `_setup_write_fifo`; `stream/stypes.py` `ReadFIFO`, `WriteFIFO`, `ReadRAM` | Invariant: the words put out followed by the results in the stages are those of the sequential program on the items entered and the words put in, and what the program leaves is in the FIFO (`Rep` of C01). For `ReadRAM`, data register `j` holds what the item `j + 1` advances before sees. |
| C85 | `stream/stypes.py` `Pointer`, `Slice`, `Cat`, `Repeat`, `Split`, bitwise, logical and reduction operators and `eval()` of the reductions | Bit by bit: the value of the Verilog expression that is assigned to the node's register (`Vlog`), with lemmas for the bits of a wrapped, shifted, sliced and concatenated value; `Split` by induction over the chunks. |
| C86 | `thread/ttypes.py` `Shared` with `Mutex` | The statements of the calls in order, bit by bit; with the mutex by `c21_exclusion`: at each edge at most one thread writes, so the content is constant between read and write, then induction over time for the sum. |
| C87 | `types/rom.py`, `stream/stypes.py` `LUT`, `Predicate`, `Reg` | The `case` by position in the list; runs of the register by induction over time; the operators against the contract `Op.Drives` of the scheduler. |
| C88 | `thread/scope.py`, `thread/compiler.py` `getVariable`, `visit_Assign`, `_call_Name_function`, `visit_Return` | Meaning of the statements in Python as an inductive relation (`Py`). Frames only grow and registers are new (`shape`); by induction over the run in Python the resolved program runs in the same way with the registers of the final frame (`sim`); composed with `c19_final`. |
| C89 | `thread/compiler.py` `visit_BinOp`, `visit_UnaryOp`, `visit_BoolOp`, `visit_Compare`, `visit_IfExp`; `thread/operator.py` | Meaning of expressions in Python (`TE.py`); four uses of an expression (number, low bits, truth value, test), each with a meaning of the Verilog expression over all contexts; induction over the expression (`good`), chains of comparisons with the accumulated conjunction (`Chain`). |
| C90 | `types/axi.py` `set_memory`, `align`, `to_memory_image`, `aligned_shape`, `shape_to_memory_size`, image of `AxiMemoryModel` | Bits of lists of words (`wordBit`); splitting (`split_bits`), packing (`pack_bits`) and writing a slice (`put_bits`) keep the bits; loop of `align` by rows (`alignLoop_rows`); text written is read back (`readmemh_text`); joined with C57 for `read_word`. |
| C91 | `dataflow/scheduler.py`, `dataflow.py` `implement`, `allocator.py`, `visitor.py` `AllVisitor` | the scheduler agrees with that of the streams while a variable is below every operator (`implement_agree`); start stages are end stages of operands (`Asap`), so stages are longest paths; the sorted operators form an ordered balanced network of C58, whose streams are those of the graph (`den_mean`) |
| C92 | `types/axi.py: AxiMultiportMemoryModel` | a port of a run is a run of the memory of C56 in which all changes of the memory appear as `write` intrinsics (`port_run`); the bytes after a cycle by a fold over the ports |
| C93 | `dataflow/dtypes.py: Divide, Mod` | every register as a function of the operands a number of steps ago (`at_signs`, `at_stage`, `at_valids`), divider as in C05; then the value over ℚ with the expressions of C73 |
| C94 | `dataflow/dtypes.py: _Accumulator` and its classes | low bits of the expressions (`Low`, `Cg` of C89) give one step; then induction over the records, last one first, with `count` as the number of enabled elements modulo the size |
| C95 | `thread/stream.py: _synthesize_set_sink_multipattern` | the invariant of C33 for the odometer, with the list of unstalled running cycles in place of the number of them; words are kept or dropped with the address of their position |
| C96 | `thread/ttypes.py: set_parallel, unset_parallel`; `thread/compiler.py: setFsm, incFsmCount` | statements in a block only add assignments and jumps of the current state; the jump of `unset_parallel` is the last of that state; so the FSM differs from that of the program with one assignment per block only in overridden jumps, has the same clock edge, and C19 applies |
| C97 | `resolver/resolver.py: ReplaceVisitor.visit_For, visit_If, visit_Subst, visit_While`, `ForReplaceVisitor`, `visit_Always` | simulation with states equal but for the loop variables: an expression resolved with the values of the loop variables has its value in the other state; induction over the iterations for an unrolled loop, over the execution for `While`; a loop in place by a frame lemma; both directions; the changed loops by an invariant that keeps the condition true |
| C98 | `types/axi.py: AxiSerialMultiportMemoryModel` | per port, for any contents of the memory: invariants on the state of the FSM relate the registers to the rest of the request being served (writes and reads); progress by counting delay states and sleep cycles; memory: byte by byte, equal to that of the transfers or written by a word not yet taken, which is held and written again; failures by an invariant of the stuck state and by a concrete run |
| C99 | `stream/stypes.py: _CustomCounter, CustomCounter` | the concatenation as a number, its slice at the sum of the widths behind a variable; the cast evaluated as the Verilog expression; what the tuple shows determines the registers if there are no points; the next values from this; a shift by p > 0 changes every value but 0 because 2^p - 1 is odd |
| C100 | `stream/stypes.py: _PlusN, Average, AverageRound, Complement2, Abs, Sign` | the printed sum means the sum in every wide enough context; the tree of C30 and the divider of C73 for the averages; `n & (n - 1) = 0` exactly for powers of two (bit `log2 n` of n and n - 1); the expressions of `Abs` and `Sign` evaluated in the width of the target or 32 bits |
| C101 | `simulation/simulation.py: setup_clock, setup_reset, to_verilator_cpp`, `simulation/verilator_template.cpp` | the forever loop by induction over its passes; the block of the reset split at its delays; the C++ loop by induction over the evaluations: the step divides every period, so no change is missed, and `n / q` grows exactly at the multiples of `q` |
| C102 | `seq/seq.py: update, implement` | the values assigned per delay of the merged Seq are those of the destination followed by those of the source, so the lemma behind C12 applies; the reset list is the union because a name is one register object; comparison with two blocks through the list of values each block assigns to a register |
| C103 | `types/axi.py: split_read_write` | both loops by induction over the ports: names and drivers added; a name that begins with one of the read prefixes cannot begin with one of the write prefixes; the theorems speak of every assignment of values that agrees with the drivers |
| C104 | `types/ipxact.py: to_ipxact`, `types/componentgen.py` | the value of a key after each pass of the loop, then by induction over the buses; `Nat.clog` for the range |
| C105 | `thread/compiler.py: _call_Name_print, _print_binop_mod, _print_f_strings` | `$display` as a scanner of the format with an arbitrary way to show a value; each argument gives formats, values and texts that fit, kept under appending |
| C106 | `types/axi.py: AxiSlave.pull_request, pull_write_request, pull_read_request` | the ready signals as a disjunction over the calls; acknowledgement = transfer; case analysis of one step, induction for the identifiers |
| C107 | `core/vtypes.py: equals`, `attr_names` of the classes | mutual induction over expressions and lists of expressions |
| C108 | `thread/util.py: copy, copy_pattern` | entries of the dictionaries stay under every sequence of calls; entries are streams that exist |
| C109 | `seq/reset_visitor.py: ResetVisitor` | the statements made for each target; all statements covering a bit write the same value; bits of literals by division |
| C110 | `seq/seq.py: make_always`, `fsm/fsm.py: make_reset` | C109 started from the registers after the statements of the user; the first statement for a part is the only one kept |

## What is modelled

| model file | code |
|----|----|
| `Hdl`, `Seq` | `seq/seq.py` (except below), `seq/reset_visitor.py`, `seq/subst_visitor.py`, `If`/`Subst` of `core/vtypes.py` |
| `Fsm` | `fsm/fsm.py` (except below) |
| `Fifo`, `ThreadFifo` | `types/fifo.py: mkFifoDefinition`; `thread/fifo.py: FIFO` and the intrinsics `enq`, `deq`, `try_enq`, `try_deq` |
| `Skid` | `types/skidbuffer.py` |
| `Mul`, `Div` | `{types,stream,dataflow}/mul.py`, `stream/madd.py` cores; `{stream,dataflow}/div.py` |
| `Ram`, `Multibank` | `types/ram.py`; `thread/ram.py: read_burst, write_burst`, `MultibankRAM.read/write/read_burst_packed/...` |
| `Mutex` | `thread/ttypes.py: Mutex, Barrier` |
| `Thread` | `thread/compiler.py`, `thread/scope.py`: statements, loops, calls |
| `Uart` | `thread/uart.py: mkUartTx, mkUartRx, send` |
| `AxiReg` | `thread/axis.py: AXISRegister, AXISLiteRegister` (`write, write_flag, wait_flag`, register FSMs), `types/axi.py: AxiSlave, AxiLiteSlave.pull_request, pull_write_data, push_read_data` and the response registers |
| `AxiMem`, `AxiWord` | `types/axi.py: AxiMemoryModel` (FSMs, FIFOs, sleep counters, `write`; `read_word`, `write_word`) |
| `Dataflow` | `dataflow/dtypes.py`: handshake of `_BinaryOperator`, `_UnaryOperator`, `_SpecialOperator`, `Times`, `Divide`, `_Prev`, `_Accumulator`, `_connect_ready` (data functions are parameters) |
| `Pipeline` | `pipeline/pipeline.py: Pipeline.input, stage, _accumulate, _make_tmp, _make_prev, make_always`, `DataVisitor`, `_PipelineVariable.prev, make_output` |
| `ThreadRun` | `thread/thread.py: run, join, done, reset, _synthesize_run_fsm` (one parent; the states of the body are a function on the child's registers) |
| `StreamRun` | `thread/stream.py: _synthesize_run` and the generators of `set_source`, `set_sink` (with `oready` 1; the data path is an input) |
| `Sched` | `stream/scheduler.py`, `stream/allocator.py`, `stream/stream.py: implement_control, _make_valid_chain` |
| `StreamOp`, `StreamAcc` | `stream/stypes.py`: trees, `Max/Min`, `SraRound`, `RandXorshift`, accumulators, counters |
| `StreamPattern` | `thread/stream.py`: `_to_pattern`, source/sink pattern, source/sink multipattern |
| `AxiChan`, `DmaReq`, `DmaFsm`, `DmaData` | `types/axi.py` master channels, outstanding counter, boundary helpers; `thread/axim.py` request FSMs, data FSMs, descriptors |
| `Fixed`, `Saturate`, `VExpr`, `Vlog` | `types/fixed.py`, `types/saturate.py`, operator classes of `core/vtypes.py` as printed by `verilog/to_verilog.py` |
| `Index`, `Literal`, `Mux` | `core/vtypes.py: __getitem__, Int, str_to_*, Mux, PatternMux, PatternIf`, `types/util.py` |
| `Module` | `core/module.py` name tables, `copy_*`, `connect_*`, temporary names |
| `Emit` | `verilog/to_verilog.py: VerilogCommonVisitor, VerilogAlwaysVisitor, VerilogBlockingVisitor` and `verilog/from_verilog.py: VerilogReadVisitor` on expressions, statements, functions and tasks; the input and output are pyverilog's trees |
| `Hier` | `core/module.py: Module.Instance, GenerateFor, GenerateIf, find_module, get_modules, add_hook, has_hook, resolve_hook, to_hook_resolved_obj`, `Generate.get_modules`, `GenerateIf.Else` |
| `Block` | `thread/ram.py: MultibankRAM.read_burst_block, write_burst_block, write_burst_bcast`; the sizes and addresses of `thread/axim.py: _dma_read_packed, _dma_write_packed` |
| `StreamIn` | `thread/axistreamin.py: AXIStreamInFifo` data machines (same width with any number of FIFOs, narrow, wide) |
| `StreamOut` | `thread/axistreamout.py: AXIStreamOutFifo` data machines (same width with any number of FIFOs and `write`, narrow, wide), `write_fence`, `AXIStreamOut` data machine for RAMs of the same width with any number of RAMs; `types/axi.py: AxiStreamOut.write_data` |
| `StreamMem` | `thread/axim_for_axistream.py`: the data machines of both engines and what their request machines enter into the request FIFOs; the request machines themselves are those of `DmaFsm` |
| `Pool` | `thread/pool.py: ThreadPool.run`, `join`, `reset`, the selection by `tid` of `done` and `ret`; not: the errors raised for threads that were not started, and `ThreadPool.start`, which the register of the same name hides |
| `Submod` | `core/submodule.py: Submodule.__init__`; `core/module.py: copy_params_as_localparams, copy_localparams, copy_ports, copy_ports_as_vars, get_opposite_variable`; `CollectVisitor`, `RenameVisitor`, `make_width` and `_ParameterVariable.__init__` for constant expressions; matching of regular expressions is a parameter; not: `AnyType` ports, `dims`, `postfix`, `rename_exclude`, one-element tuples as arguments, reading of Verilog text, `copy_params`, `copy_vars`, `connect_*` |
| `RingBuf` | `stream/stypes.py: RingBuffer, _RingBufferOutput, Scratchpad, _ScratchpadOutput`, with `seq.Prev` with a condition, the valid chain of `stream.py`, one read port of the RAM; width and sign of the address and of the word read | scheduler (stage distance is a parameter), initiation intervals, reset during a run, streams without `ivalid`/`oready`; several ports are separate runs |
| `StreamArith` | `stream/stypes.py: _BinaryOperator, Plus, Minus, Times, Divide, Mod, comparisons, shifts, Uminus, Cond, Cast, ReinterpretCast, Int, FixedPoint` attributes and the value of `sig_data`; `fx.adjust`, `fx.shift_left`, `fx.shift_right`; one pass through `stream/div.py` | bitwise and reduction operators, `Power`, `Float` and `Str` constants, negative points, x values (division by zero), latency (C24, C04) |
| `LineBuf` | `stream/stypes.py: LineBuffer, _LineBufferOut` with the two ports of each RAM and `seq.Prev` | scheduler, reset in the middle of a run, streams without `oready`, RAMs of one word (address of no bits), argument checks, several conditions in one item |
| `MCyc` | stream/stypes.py:838-920 (`DivideMultiCycle`), 3188-3507 (`ReduceMul`, `ReduceDiv`), thread/stream.py:86-93 (`internal_oready`), types/util.py:91-100 (`add_disable_cond`), stream/scheduler.py:93-94 | `log` in the width of `ii_count` is exact. Constant `initval`, `size`, `interval`. The other factors of `internal_oready` are one input per cycle. The stream around the operators is seen only through valid, ready and the operand. |
| `SFifo` | thread/stream.py:269-287, 388-402, 943-976, 1294-1329, 1627-1805, 2493-2525, 2600-2649, 3173-3201, 3262-3305, thread/fifo.py:119-158, types/util.py:91-100 | The simplifications of `SRun` except that of `oready`. Each FIFO is used by one source or one sink. `sink_size_buf` (never read) is left out. |
| `EmitMod` | `verilog/to_verilog.py` 553-815, `verilog/from_verilog.py` 154-405, 592-677, 714-907, `core/module.py` 50-181, 1179-1198, 1335-1503: modules as lists of items, trees of definitions. Left out: `Tri`, `Supply`, `EmbeddedCode`, initial values of variables, instance arrays, delays of an `assign` that is read, the `GenerateIfElse` that reading adds to the items (it is written as nothing). |
| `EmitMod`, `Emit` (no new definitions of the code) | used by C78; `Lemmas/EmitModF.lean`, `Lemmas/EmitModG.lean` state which modules are meant (`VMod.Fine`) and what a parsed tree is (`parsedMod`) |
| `Substream` | `Substream.write/_implement` (registers and `ivalid` of the child), `add_disable_cond` for `oready`, `busy` of a stream, three streams nested | `SubstreamMultiCycle`, `dump`, cutting of operands to the width of a variable, varying operands for parameters of the child |
| `ReduceValid` | `_ReduceValid`, `ReduceCustomValid`, `CounterValid`, `ReduceArgMax`, `ReduceArgMin` and their Valid forms, `Predicate`, `_Prev` | `Reg.write`; sizes that are stream values |
| `StreamParam` | `parameter`, `set_parameter`, `set_source_empty` of thread streams (thread/stream.py:415-448, 978-1024, 1406-1442), `Variable.write` (stypes.py:2795-2822) | widths and `write_adjust` left out; substreams (`is_root`) not included |
| `ArgBind` | `_call_Name_function` (binding of arguments), `setArgBind`, `setVarargBind`, `getVariable`, call frames | registers numbered, defaults literals, names and sums; `*expr`/`**expr` in calls, fixed-point values and the second visit of defaults by `generic_visit` left out |
| `ReadModWrite` | `ReadRAM` (latency 1), `WriteRAM`, `ForwardDest`, `ForwardSource` as made by `read_modify_write_RAM`, on the RAM of `Ram` | no conversion of widths, addresses natural numbers, the RAM selected and its ports used by nobody else; `set_read_modify_write_RAM` without `read_ports` raises (stream.py:1531 uses `read_ram` before it is assigned) and is left out |
| `StreamFifoOp` | `ReadFIFO` (latency 1) and `WriteFIFO` with any number of stages in between on the FIFO of `Fifo`; `ReadRAM` with any latency | the FIFO or RAM is selected and this side of it is used by nobody else; all other stall conditions are an input; no conversion of widths; `ReadFIFO` with latency 2 or more, which has the same registers as `ReadRAM`, is not put together with the FIFO |
| `StreamBits` | `_BinaryLogicalOperator`, `_UnaryLogicalOperator` and subclasses, `Pointer`, `Slice`, `Cat`, `Repeat`, `ReinterpretCast`, `Split`; `eval` of the reductions | the value only, without the registers of the node; `point` is left out; `Pointer` and `Repeat` with constant index and count; `eval` of other operators and of nodes that are not integers is left out |
| `Shared` | `Shared.read`, `Shared.write` with zero, one or two parts, for registers and arrays; the mutex and the FSMs are those of `Mutex` and `Fsm` | contents as words; edges with reset are left open; a part that is a pair makes `Pointer(v, (a, b))`, for which no Verilog is written, and is left out, as are negative constant parts |
| `Rom` | `mkROMDefinition`, `SyncROM`, `AsyncROM`, `LUT`, `Predicate`, `Reg` with `Reg.write` | `math.log(n, 2)` is exact (tables below 2^29 entries); entries are Python integers; the address of an unclocked ROM is a sequence of values |
| `ThreadNames` | `ScopeFrameList`, `ScopeFrame`, `getVariable`, `visit_Assign`, `visit_AugAssign`, `visit_Return`, inlining of calls; gives programs of `Thread` | calls in expressions are statements before it; positional arguments; objects outside are integers; no nested functions, lists, fixed point; `else` of loops is left out (the visitor drops it silently) |
| `ThreadExpr` | the visitors of expressions and the operator tables; gives `VExpr` | `optimize` is taken as the identity (it calls pyverilog and is undone by any exception); no floats, fixed point, `**`, subscripts, calls |
| `MemImage` | `set_memory`, `align`, `to_memory_image`, shapes, `_make_img`, `$readmemh` | numpy `int64` arithmetic as 64-bit vectors (`np.full` of `2**64-1` is -1); `math.ceil(a/b)` and `math.log` exact; the file is written at once; image files given by name are not read |
| `DfSched` | `dataflow/scheduler.py` `visit_*`, `dataflow.py` `implement`, `allocator.py`, `AllVisitor`; network of `Dataflow` from the scheduled graph | `fill_gap`, `balance_output` and `_max` are those of `Sched`; no `prev`, no `variable_latency`; the state of an operator is the history of its operands |
| `AxiMulti` | `AxiMultiportMemoryModel`: ports of `AxiMem` with one memory, names of the counters | as `AxiMem` |
| `DfArith` | `dataflow/dtypes.py: Divide, Mod` with `dataflow/div.py` | reset; the ready signals of the operands (C58); the other arithmetic operators of `dataflow/dtypes.py` compute what those of `SArith` do and are not repeated |
| `DfAcc` | `dataflow/dtypes.py: _Accumulator`, `ReduceAdd`, `ReduceSub`, `ReduceMul`, `Counter`, `Pulse`, `_ReduceValid` | handshake (C58); initial values that are not integers; a `size` that changes; `ReduceCustom` is in the model, the theorems are about the other classes |
| `ThreadPar` | `Thread` with the flag `fsm.parallel`, `set_parallel`, `unset_parallel` | as `Thread`; other intrinsic functions and methods in a block |
| `ResolverStmt` | `resolver/resolver.py: ReplaceVisitor` on statements, with what is returned and what is changed in place, `ForReplaceVisitor`, `visit_Always` | widths (integers; C44), `Case`, delays, system tasks, calls, `Cat`, slices, `Repeat`, nodes shared between statements, widths that are not constants |
| `AxiSerial` | `types/axi.py: AxiSerialMultiportMemoryModel` | the FSM and registers of each port, sleep counters, shared byte memory; the writes of one cycle in any order of the ports, since they are in different always blocks; not modelled: identifiers, image file, `read`/`write` intrinsics, width of the sleep counters |
| `CustomCnt` | `_CustomCounter`, `CustomCounter` | the stall counter of `initiation_interval`; an expression of `func` is a function of the values of its operands |
| `StreamAvg` | `_PlusN`, `Average`, `AverageRound`, `Complement2`, `Abs`, `Sign` | points, latencies and enables; `int(log(n, 2))` is taken to be exact |
| `TestBench` | `setup_clock`, `setup_reset`, `to_verilator_cpp` with its template | the design, `$finish`, waveform dumps, how `io_` ports are connected to the registers (`Reg.connect`); races between blocks at one time |
| `SeqUpdate` | `Seq.update`, `Seq.implement` | `as_module=True`; the counter of temporary registers, shared through the module, is not merged; `Else`/`Elif` on the source after the merge, which extend an `If` object the destination shares |
| `AxiSplit` | `split_read_write` | the temporary wire of `Reg.connect`; widths (copied); ports that are inputs or outputs of the module itself |
| `IpXact` | association of clocks, resets and buses, `mkMemoryMap`, `mkPortSignal` | XML, port maps, interrupts, views, files; `math.log` taken as exact; dictionaries given with lists as values |
| `ThreadPrint` | `print` in threads: format and values of `$display`, and the line displayed | the FSM state of the call, `!r`, escapes, `visit_Print` (Python 2); products and quotients of the arguments exact; directives without value (`%m`) |
| `AxiPull` | `pull_request`, `pull_write_request`, `pull_read_request` for any number of calls; response and identifiers of `AxiSlave` | `wready` is an input; the equal `prev_*valid` registers of the calls are kept once; user signals, ports without registers (`itype`, `otype`) |
| `VEquals` | `equals` and the compared attributes of each class of expressions | classes compared by `object_id` are one constructor; floats, `Str`, values of `Int` with `x` or `z` |
| `CopyCache` | choice of the stream in `copy` and `copy_pattern` | the use of the stream (`set_source`, `set_sink`, `run`, `join`); signals of other objects with the names of the stream |
| `PartReset` | `ResetVisitor` for variables, bits, slices and concatenations of these, `make_reset` | registers with dimensions; variable positions; pointers of pointers; nested concatenations; initial values other than integers; literals have 32 bits unless a wider operand is present |
| `UserReset` | the `reset` argument of `make_always` of `Seq` and `FSM`, merging in `FSM.make_reset` | concatenations; right sides are given by their bits |
| `Resolver` | `resolver/resolver.py` on expressions |

Simplifications common to all: values are integers (no `x`/`z`), a register name denotes one object,
Python objects passed as widths or depths are the integers they stand for.  Each model file starts
with the simplifications of its own.

## What is not modelled

* pyverilog (the text of a tree, the parser); in `verilog/to_verilog.py` `Scope`, `EmbeddedCode`, `Int` from raw text and
  delays that are neither integers nor `Int`, `Tri`, `Supply`, initial values of variables, instance arrays;
  `simulation/*` other than clocks, resets and the Verilator program (C101), `types/ipxact.py` and `types/componentgen.py` other than C104.
* In hierarchies `StubModule` and instances by string, parameters and ports of instances, checks of instance names.
* In block transfers nested `MultibankRAM`, other users of the port, and the `done` of `write_burst_bcast`, which is a
  Python list and no signal (`done_list.append(done_list)`, thread/ram.py:900).
* `make_module` (`as_module=True`); keyword arguments given directly to `add`.
* In `pipeline/pipeline.py` `reset`, graphs, the cache of `prev` and signals that are not pipeline variables;
  in `dataflow/` graphs, `InputVisitor` and `OutputVisitor`; in `dataflow/dtypes.py` the functions of the operators, `write` and
  `read` of variables and outputs, variables without `valid` or `ready` and the valid-signals of `ReduceAddValid` and so on.
* In the stream scheduler: `Variable.connect` aliases, initiation intervals other than 1, operators
  whose latency changes while being scheduled (`variable_latency`).
* In thread streams: `terminate`, infinite sources, multicycle substreams, dump, changing the kind of a source between runs,
  constants, RAMs used by several sources.
* In the DMA: multi-bank destinations, `dma_*_packed`/`bcast` variants.
* In `axistreamin.py` the request FIFO (a request is an input of the machine), several FIFOs sharing a narrow or wide machine,
  `tlast` (ignored by the code), the `read` intrinsic; the machines of `AXIStreamIn` for RAMs (lines 210-455) repeat those of C37.
* In `axistreamout.py` the request FIFO is an input of the model; several FIFOs sharing one narrow or wide machine, `write` during narrow or
  wide transfers, and the machines of `AXIStreamOut` for RAMs of other widths (they repeat those of C37 without the splitting into bursts) are
  not modelled, nor `tuser`, `tid`, `tdest`. The narrow machines do not record the operation as synthesized, so every call of `dma_write`
  adds another copy; the copies run in step and are modelled as one.
* Of AXI slaves other than the register slaves all but their requests (C106): `disable_*`, `connect`, a register
  slave of length 1 (its mask has width 0); `AxiSerialMemoryModel`, memory image files given by name, the identifiers of the memory model.
* In the thread compiler: fixed-point variables, intrinsics, subscripts, `*expr` and `**expr` in calls (keyword and default
  arguments are in `ArgBind`, apart from the other statements); several parents that start one child outside of a pool.
* In the resolver: `Power`, `Xnor`, reductions, statements and whole modules.

## Disagreements found

Where the code violates the natural claim, the negation is proved on a concrete witness and the theorem
states the hypothesis under which the claim holds.

| property | theorem | what happens |
|----|----|----|
| C02 | `c02_width_one_never_ready` | a thread FIFO with `addrwidth=1` never becomes ready |
| C11 | `c11_else_if_drops_condition` | `seq.Else.If(d)` drops the condition |
| C13 | `c13_multi_bit_condition_lost` | a delayed multi-bit condition keeps its lowest bit only |
| C14 | three theorems | the cache of `Prev` ignores condition and initial value, and names clash |
| C18 | `c18_other_state_lost` | `When(i)` for another state loses a delayed statement |
| C19, C20 | `c19_not_*`, `c20_not_innermost` | `break` in nested constructs, calls in a `while` test, `range` end re-evaluated, negative step |
| C24, C25 | `c24_not_acc_without_valid`, `c25_not_*` | accumulators without valid consume fill values; missing valid or ready |
| C26, C27 | `c26_reset_disabled`, `c26_interval_stuck`, `c27_reset_*`, `c27_pulse_interval` | a reset is forgotten when the enable is low; size with interval deadlocks |
| C29, C30 | `c29_too_far`, `c29_unsigned`, `c30_*_mixed` | shifts beyond the width, mixed widths or signs |
| C32, C33 | `c32_negative_axis`; `c33_different_sizes`, `c33_restart` | wrong strides for negative axes; patterns of different sizes |
| C34 | `c34_zero_read` | a read of size 0 requests a burst of 256 |
| C35, C36 | `c35_simultaneous`, `c36_lite_two_requests` | two call sites at one edge; AXI4-Lite comment |
| C37 | `c37_read_narrow_not_pow2` | width ratios that are not powers of two |
| C39-C41 | last theorems of each file | negative points, overflow, mixed signs, saturation bounds |
| C42, C43 | `c42_reverse`, `c42_no_clip`, `c43_negative` | slices with negative step or out of range; sign of literals |
| C44 | `c44_breaks*` | the resolver drops widths, signs and rounding direction |
| C46, C51 | `c46_copy_twice`, `c51_wire_and_reg` | duplicate definitions accepted |
| C49 | `c49_not_after_if` | `Else.goto` with an open `If` captures the next statement |
| C53 | `c53_not_w1` | with one clock cycle per bit the receiver samples the wrong bits |
| C54 | `c54_not_strobe` | `wstrb` is ignored: a word written with no byte selected replaces the register |
| C54 | `c54_not_wait_flag` | `wait_flag` overwrites a word that the bus writes (and acknowledges) in the same cycle |
| C54 | `c54_not_fair` | a master that offers a write address in every cycle starves reads |
| C55 | `c55_not_length`, `c55_not_length_run` | a read request of n >= 2 beats is answered with n + 1 beats: `rlast(rcount <= 1)` uses the count before its decrement |
| C55 | `c55_not_rid` | `rid` of an offered beat changes when the next read address is accepted |
| C56 | `c56_not_bready` | the memory lowers `bvalid` after one cycle whether or not `bready` is set |
| C56 | `c56_not_interval1` | with `sleep_interval=1` the memory sleeps for ever |
| C56 | `c56_not_small_fifo` | with `req_fifo_addrwidth=1` the request FIFO is always almost full: no request is accepted |
| C57 | `c57_not_width` | `read_word`/`write_word` access `ceil(bits/8)` bytes, too few for words that cross a byte boundary (widths 3, 5, 6, 7 modulo 8) |
| C58 | `c58_not_late` | a variable used beside a shared one is taken although the shared one waits: the value is lost |
| C58 | `c58_not_outputs` | with two outputs that are not ready together, values of a variable used by one of them are lost |
| C58 | `c58_not_mul` | `x * y + (y + z)` with a common valid and a stalled output loses a value of `z`: the multiplier stalls as a whole, the delay registers do not |
| C59 | `c59_not_unary` | `DataVisitor.visit__UnaryOperator` returns the operand: `stage(~x)` is `stage(x)` (pipeline.py:615-616) |
| C59 | `c59_not_acc` | `_accumulate` does not raise `max_stage_id`: outputs beside an accumulator on the last stage come one cycle earlier than it |
| C59 | `c59_not_width` | the registers `make_output` inserts have the width of the pipeline (32), wider values are cut |
| C59 | `c59_not_const` | `stage` of a constant is 0 in the first cycle |
| C60 | `c60_not_nested` | nested expressions leave registers over that are always ready (operands are visited again, pipeline.py:576, 580); after one stalled cycle data are lost and combined wrongly |
| C61 | `c61_not_reset_run` | `reset` has no state: directly followed by `run` the start is lost and the next `join` never returns |
| C61 | `c61_not_no_reset`, `c61_not_running` | `run` of a child that is not in its start state is lost without notice |
| C61 | `c61_not_kwargs`, `c61_not_missing` | keyword arguments of `run` raise `NameError` (thread.py:419, `key`); a missing argument of a second `run` keeps its old value |
| C62 | `c62_not_gap`, `c62_not_chain` | with runs shorter than the pipeline, `run` after `source_join` or two `source_join_and_run` in a row let `join` return before the last run has written anything (`busy_reg` is cleared by the end of an earlier run) |
| C62 | `c62_flush` | `sink_stop` comes one cycle after the last item: a sink with more addresses than items gets one word more |
| C62 | `c62_not_empty` | a source of size 0 reads `2 ** (addrwidth + 1)` words |
| C63 | `c63_not_delay` | `Subst` with `ldelay`/`rdelay` in an `always` block puts an expression where pyverilog expects a `DelayStatement` (to_verilog.py:829-830) |
| C63 | `c63_not_level` | `Event` of a level makes a `Sens` without a type (500); `visit_SensitiveAll` is missing |
| C63 | `c63_always` | `Wait`, `Forever` and `Event` of edges in an `always` block raise (only `VerilogBlockingVisitor` has the methods); a delay of 0 is dropped |
| C64 | `c64_not_initial` | a nonblocking assignment in an `initial` block or a task becomes blocking (to_verilog.py:850 ignores `blk`) |
| C64 | `c64_function` | the body of a function or task is repeated once per statement (from_verilog.py:800-801, 844-845) |
| C64 | model of `readE`, `readS` | `visit_FloatConst` raises (`Float` accepts no text), `visit_TaskCall` gives the name and the arguments in a form that cannot be written |
| C65 | `c65_not_clash`, `c65_clash` | two modules of one name under different parents: `find_module` only looks below the parent, and `get_modules` keeps the last (module.py:568-581, 1271-1282) |
| C65 | `c65_overwrite` | the renaming loop enters the renamed module in `submodule` before it looks whether the name is taken, and so replaces a module of that name (module.py:574-579) |
| C65 | `c65_topClash` | an instantiated module with the name of the top module is written in its place |
| C65 | `c65_not_else`, `c65_inElse` | `GenerateIf.Else` is not in `generate`, so modules with instances there only are not written |
| C65 | `c65_not_hook`, `c65_hookOrder` | `has_hook` and `resolve_hook` do not look into `generate`: `Seq`, `FSM` and the like of a generate block, or of a module instantiated only there (or there first), write nothing |
| C66 | `c66_not_wready` | `wready` of `write_burst_block` is taken after `fsm.inc()`: low in the turns of the first bank, where words are stored all the same (ram.py:796, 825-829) |
| C66 | `c66_not_packed` | packed DMA shifts by the rounded-up logarithm of the number of banks, so with 3 banks it moves too few words and reuses addresses (axim.py:603-615; ram.py:715-722) |
| C67 | `c67_not_two` | the decrement and the end of a transfer of `AXIStreamInFifo` do not test `read_op_sel_buf`, so another FIFO with room counts beats that are not taken (axistreamin.py:675-677, 683-689) |
| C67 | `c67_not_wide_full` | in the wide case state 0 clears `wvalid` whether or not the FIFO accepted the last word, which may have become almost full by the word before (axistreamin.py:821-824, 861-862) |
| C67 | `c67_not_wide_size` | in the wide case a transfer ends only at `count == pack_size - 1` with size 0 or 1; other sizes wrap the register around (axistreamin.py:864-869) |
| C67 | `c67_narrow_not_pow2` | as for `AXIM`, width ratios that are not powers of two never deliver a word (axistreamin.py:694-700, 734) |
| C68 | `c68_not_two`, `c68_not_two_rams` | every operation of `AXIStreamOut` after the first is built with `set_index(1)`: it looks for its request in state 1, where the interface is busy, and for RAMs its unconditional jump from state 2 takes the first transfer away (axistreamout.py:216-225, 249, 641-650) |
| C68 | `c68_not_zero`, `c68_not_zero_ram` | a transfer of size 0 is accepted and never ends (axistreamout.py:653-702, 228-261) |
| C68 | `c68_not_async` | a FIFO with `sync=False` is accepted; `rlast` is one cycle late for its data, so no beat is marked and the transfer never ends (axistreamout.py:664, 680, 696-702) |
| C68 | `c68_not_size` | in the wide case the size is rounded up, and the words that fill the last beat are taken from the FIFO (axistreamout.py:841-844) |
| C69 | `c69_not_zero_read` | a read of size 0 into a stream never ends (axim_for_axistream.py:236-265) |
| C69 | `c69_not_zero_write` | a write of size 0 enters the size 0 and a burst of length 0; the data machine then takes the size of the next call for a burst length (axim_for_axistream.py:492-530) |
| C70 | `c70_not_two_parents` | two parents in `pool.run` in the same cycle: each thread tests only its own bit of `start`, so both take the arguments assigned last (pool.py:92-97); `start` is then also assigned in two always blocks |
| C70 | `c70_not_tid` | `run` evaluates `tid` again when it clears the bit; if it has changed the bit stays set (pool.py:102-104) |
| C70 | `c70_not_range` | no check of `tid`: `run` starts nothing and `join` waits forever (pool.py:119); also for a thread whose `tid` was overwritten by a second `to_thread_pool` (pool.py:39-40) |
| C71 | `c71_not_closed` | `CollectVisitor` visits widths but not values, so constants that only the values of localparams use are not copied, while the copies refer to them (collect_visitor.py:54-59, submodule.py:93-118) |
| C71 | `c71_not_raw` | `copy_ports` and `copy_localparams` rename `width` but not `raw_width`, and `make_width` writes `raw_width` first (module.py:770-815, to_verilog.py:553-557) |
| C71 | `c71_not_fresh` | the `copy_*` methods call `add_object` without `check_existing_identifier` |
| C71 | `c71_not_unknown`, `c71_not_extra` | unknown names in `arg_ports` and surplus positional arguments are dropped silently (submodule.py:63-71, 160-167); unknown names in `arg_params` are a `KeyError` |
| C71 | `c71_not_pattern` | keys of `arg_ports` are used as regular expressions for the exclusion and as names for the connection (submodule.py:133-140, 162) |
| C71 | `c71_not_link` | a constant whose value is a constant takes its value, so that it does not follow an override (vtypes.py:754-755) |
| C72 | `c72_not_late` | the registers of `seq.Prev` for the address shift only when the stage of the read holds an item (stypes.py:4235-4238), so with two or more stages between, items that do not follow `diff` items directly read with a stale address |
| C72 | `c72_not_length` | `raddr_base + offset` is unsigned, a negative sum compares as larger than `length`, which is subtracted (stypes.py:4239-4241) |
| C72 | `c72_not_narrow` | the offset is extended with zeros in the unsigned sum (stypes.py:4239) |
| C72 | `c72_not_value` | `sig_data` of `RingBuffer` and `Scratchpad` is the wire of the input though the latency is one (stypes.py:4206, 4311) |
| C72 | `c72_not_sign` | the wire for the read word has the larger width of buffer and offset, and the port of the RAM is unsigned (stypes.py:1504-1506, 4250) |
| C72 | `c72_not_pad` | reads of a scratchpad in later stages see writes of following items |
| C73 | `c73_not_mixed`, `c73_not_mixed_plus` | no `$signed` extension when a signed and an unsigned operand meet: the negative one is read as unsigned (stypes.py:492-511) |
| C73 | `c73_not_const` | `FixedPoint._implement` builds the literal without `signed` (stypes.py:3964), `Int` does with it (3939), so comparisons with a non-negative fixed point constant are unsigned |
| C73 | `c73_not_compare` | `fx.adjust` shifts within the width of the operands in a comparison (stypes.py:496-499): bits are lost |
| C73 | `c73_not_cond` | `Cond` has the larger point but uses the values as they are (stypes.py:1521-1541, 1835-1844) |
| C73 | `c73_not_divide` | `Divide` has the point of `_BinaryOperator` though aligned operands divide to an integer (stypes.py:479-486, 700-768) |
| C73 | `c73_not_divide_mixed` | one signed operand: the divider takes the absolute value, and the sign of the result is not restored (stypes.py:715-768, div.py) |
| C73 | `c73_not_mod` | `$signed` around the aligned operand makes the shift self-determined, so it is done in the width of the operand (stypes.py:730-741, 805-816) |
| C74 | `c74_not_width` | `head` and `tail` are registers of the width and signedness of the data (stypes.py:4665-4668) |
| C74 | `c74_not_valid` | `svalid` is not used by `LineBuffer._implement` |
| C74 | `c74_not_bits` | without `rotate_conds` the write enable of one bit is the value of `shift_cond` (stypes.py:4683) |
| C74 | `c74_not_next` | the write enable is not combined with `senable` (stypes.py:4682-4711), with `tail` directly behind `head` a stall changes the length of the line |
| C75 | `c75_not_default` | `ReduceMul(x)` with the default `initval=0` is 0 for ever. |
| C75 | `c75_not_init_point` | `initval` of a fixed-point `ReduceMul` is not shifted by the point: with `initval=1` the first product loses `point` bits. |
| C75 | `c75_not_div_point` | `ReduceDiv` of fixed-point numbers divides the stored integers and does not shift the quotient. |
| C75 | (note) | `ReduceMul`, `ReduceDiv` and `DivideMultiCycle` use `self.strm.internal_oready`, which only `thread.Stream` has: in `stream.Stream` they raise `AttributeError` (stream/stypes.py:875, 3303, 3468). |
| C76 | `c76_not_async` | With a FIFO made with `sync=False` a source takes the word after the one it reads: the first word is skipped. |
| C76 | `c76_not_small` | A FIFO of address width 1 is always almost full; a stream that writes it stalls for ever. |
| C76 | `c76_not_late` | `set_sink_fifo` for the next job while a stalled job runs can change the size the running job uses. |
| C76 | `c76_not_flush` | The word too many of a sink longer than the run (`c62_flush`) is dropped when the FIFO is almost full. |
| C77 | `c77_not_delay` | The delays of `Assign` are not written. |
| C77 | `c77_not_sign` | The register of an output is written with the width and sign of the output. |
| C77 | `c77_not_shadow`, `c77_not_local` | A register of a generate block with the name of an output of the module is not written; one of a function or task makes writing fail. |
| C77 | `c77_not_unconnected` | `.x()` of an instance is read as `None`, which cannot be written. |
| C77 | `c77_not_else`, `c77_not_else_both`, `c77_not_loop` | An `if` or `for` in the else branch of a generate `if` is dropped by reading, the items inside are kept: both branches are in effect, a loop body is there once. |
| C77 | `c77_not_initial` | An `if` or `for` of an `initial` block in a generate block is read as a generate block, which cannot be written as a statement. |
| C77 | `c77_not_alias` | `localparam B = A` gets the default value of the parameter `A` (core/vtypes.py:754-755), also when made by the API: another value for `A` does not change `B`. |
| C78 | `c78_not_else`, `c78_not_loop`, `c78_not_initial` | Not stable: an `if` or `for` in the else branch of a generate `if` is gone in the text after one round; an `if` in an `initial` block of a generate block is written but not read. |
| C79 | `c79_not_twice` | A child used twice in one parent: the operands of the later operator overwrite those of the other one, without an error. |
| C79 | `c79_not_nested` | `Substream._implement` uses `reset_delay` before `_collect_substreams` sets it, so `busy` of a child ends too early by the stages before the operator; a substream of a substream then runs on while its parents stall, and an item is lost. |
| C80 | `c80_not_disabled`, `c80_not_disabled_reached` | With `enable` but without `reset` the valid signal stays 1 for disabled records after a block: the result is reported again. |
| C80 | `c80_not_interval` | `_ReduceValid` does not pass `interval` to `Pulse`: valid comes after `size` records instead of `size` intervals. |
| C80 | `c80_not_counter_step` | `CounterValid` with a step of 2: the counter has period `size / 2`, its valid signal `size`. |
| C80 | `c80_not_argmax`, `c80_argmax_first` | `ReduceArgMax` sees a new maximum by `_max != _max.prev(1)`: a block whose first element equals the maximum of the block before keeps the old index. |
| C80 | `c80_not_argmax_initval` | With the default `initval = 0` a block of negative numbers gives the value 0 and no index of its own. |
| C81 | `c81_not_restart`, `Ex81.restart` | the register of a parameter is written on `source_start` without `oready`: in runs chained with `source_join_and_run`, a stall in the cycle after the restart makes the last item of the previous run use the parameter of the next run |
| C81 | `c81_not_empty` | the write of the RAM word of `set_source` is not conditional on the mode (stream.py:2049-2051): a source used with both `set_source` and `set_source_empty` gives the RAM word also in runs in which it is set empty |
| C82 | `c82_not_missing` | a call with a missing argument is compiled; the name of the parameter stands for an object of that name around `start` |
| C82 | `c82_not_rest` | an empty `*args` is not bound to an empty tuple; its use is a NameError |
| C82 | `c82_not_default` | a default value is evaluated at each call in the scope of the called function; if it names another parameter it is the value that register had before the call |
| C82 | `c82_not_posonly`, `c82_not_kwonly` | positional-only parameters are ignored, so that their arguments are too many; keyword-only parameters and `**kwargs` are rejected |
| C83 | `c83_not_apart` | updates of words A, B, A (or A, nothing, A) in consecutive cycles lose the first update of A: only the item just before is forwarded, and the RAM gives the old word when it is written in the same cycle through another port |
| C83 | `c83_not_when` | the result of an item that is not written because `when` is false is forwarded to the next item with the same address |
| C83 | `c83_not_alias` | addresses are compared before they are cut to the address width of the RAM |
| C84 | `c84_not_ram2` | `ReadRAM` (and `ReadFIFO`) with latency 2 and a `when`: `seq.Prev(when_cond, 1)` does not wait for the stream, so that after a stall an item that has read gets the old content of the data register |
| C84 | `c84_not_async` | `read_fifo` from a FIFO made with `sync=False` gives the word after the one that is taken out |
| C85 | `c85_not_parity` | `Uxor.eval` and `Uxnor.eval` start from 1, so the parity of an integer constant is always the opposite of that of the circuit |
| C85 | `c85_not_mixed` | in `And`, `Or`, `Xor`, `Xnor` a signed operand that is narrower than an unsigned one is extended with zeros |
| C85 | `c85_not_split` | `Split(x, num_chunks=n)` with `(n-1)*ceil(W/n) >= W` (for instance 5 bits in 4 chunks) makes a slice with the upper bound below the lower bound |
| C86 | `c86_not_unlocked` | without a mutex two threads that update at the same edge lose an update (as expected; stated because `Shared` itself gives no protection) |
| C87 | `c87_not_lut` | a `LUT` whose number of entries is not a power of two takes floor(log2 n) address bits: the entries from there on are never read (the ROM of `types/rom.py` takes the ceiling) |
| C87 | `c87_not_async` | an `AsyncROM` is a latch for addresses outside its table: the `case` has no default |
| C88 | `c88_not_outer` | a local variable read (in the text) before its first assignment is taken to be the object of that name outside the function (`getVariable` looks at the order of the text) |
| C88 | `c88_not_none` | a call that returns no value gives the value of the previous execution of the same call |
| C88 | `c88_not_recursive` | the visitor inlines calls without end for recursive functions |
| C89 | `c89_not_floordiv`, `c89_not_mod` | `//` and `%` round towards 0 (Verilog), not down (Python) |
| C89 | `c89_not_truediv` | `/` silently gives the integer quotient |
| C89 | `c89_not_or` | `a or b`, `a and b` give 1, not the operand |
| C89 | `c89_not_chain` | `visit_Compare` joins with `if ret`: a comparison of two numbers that is false (0) is dropped, so that `5 < 3 < x` is `3 < x` |
| C89 | `c89_not_unsigned` | comparisons are unsigned in Verilog, so that `(a < b) - 1 < 0` is never true |
| C89 | `c89_not_wide` | sums are not widened: `(a + b) >> 1` loses the carry |
| C90 | `c90_not_pad` | `_set_memory_wide` pads by `num_pack - src.shape[-1]`, which is negative for rows longer than a word: numpy raises |
| C90 | `c90_not_offset` | an offset that is not the address of a word is rounded down silently |
| C90 | `c90_not_width` | elements of 24 bits in words of 32 bits lose bits |
| C90 | `c90_not_length` | `to_memory_image` throws the padded array away (`np.append` returns a new one) |
| C90 | `c90_not_big` | `endian='big'` calls `reverse` of a numpy array, which does not exist |
| C90 | `c90_not_fill`, `c90_not_words` | several elements per word: an incomplete last word raises, bits beyond 64 are lost |
| C91 | `c91_not_stage`, `c91_not_const` | an operator on constants only is scheduled in stage 0 without start stage (`next_stage(None)` is 0); `x + (1 + 2)` beside `x + y` loses the first value of `y` |
| C92 | `c92_not_two` | the counters of memory models are named without the name of the memory: a second memory in a module raises an exception |
| C93 | `c93_not_min` | the absolute value of the most negative dividend is negative for the divider, which is always signed (dtypes.py:856-860, div.py:57) |
| C93 | `c93_not_unsigned` | the divider of `dataflow/div.py` has no parameters for unsigned operands: the top bit is a sign |
| C93 | `c93_not_mixed` | the result of a signed and an unsigned operand is unsigned, and the sign of the quotient is dropped (dtypes.py:881-882) |
| C93 | `c93_not_mod_sign` | `Mod` negates the remainder when the signs of the operands differ (dtypes.py:993-994, 1025-1029) |
| C93 | `c93_not_mod_point` | `Mod` shifts the remainder left as `Divide` does the quotient (dtypes.py:982-986, 1017-1020) |
| C94 | `c94_not_reset_size` | with a size, `reset` sets `count` to 0 instead of 1 (dataflow/dtypes.py:2511, 2524), so the next element restarts the block |
| C94 | `c94_not_reset_disabled` | `reset` without `enable` sets `data` but not `count` (dataflow/dtypes.py:2516-2524) |
| C94 | `c94_not_valid_once` | `Pulse` keeps its value in records that are not enabled (dataflow/dtypes.py:2486-2487) |
| C94 | `c94_not_mul` | the default `initval` of `ReduceMul` is 0 (dataflow/dtypes.py:2566) |
| C94 | `c94_not_unsigned` | `data + right` is unsigned if `data` is: the operand is extended with zeros (dataflow/dtypes.py:2451-2456) |
| C95 | `c95_not_when`, `c95_skips` | the odometer and the end do not depend on the `when` condition (thread/stream.py:3050-3066, 3098-3100), unlike in the sink pattern (2887-2913) |
| C95 | `c95_different_sizes`, `c95_restart` | as C33 |
| C96 | `c96_not_if`, `c96_not_while`, `c96_not_call` | in a parallel block conditions are ignored, loop bodies are executed once, calls give the old value of the return register: `incFsmCount` and `setFsm()` do nothing, all goes to one state (thread/compiler.py:1251-1264) |
| C96 | `c96_not_break` | the jump of a `break` in a block is added after that of `unset_parallel` and without the condition of the `if` (thread/compiler.py:282-284, thread/ttypes.py:96-98) |
| C96 | `c96_unclosed` | without `unset_parallel` nothing leaves the state of the block |
| C97 | `c97_bound`, `c97_bound_ends` | a `For` with a variable bound comes back with the start of the loop in its condition and never ends: the attempt to unroll it changes the condition in place (resolver/resolver.py:378-382, 228-231) |
| C97 | `c97_step`, `c97_step_ends` | in the same way a variable step comes back with the first value of the loop variable in it (resolver/resolver.py:395) |
| C97 | `c97_exit` | an unrolled loop does not set its variable (resolver/resolver.py:397) |
| C97 | `c97_assign`, `c97_same_var` | the loop variable is replaced on left sides too: an assignment to a number, or an exception for a nested loop with the same variable (resolver/resolver.py:335, 372) |
| C98 | `c98_not_refused` | a write request made while a response is refused (`bvalid` and not `bready`) is never accepted: state `write_mode` takes the address only without `bvalid` but goes on in any case (types/axi.py:4410-4419), then waits for data forever, although the response is taken later |
| C98 | `c98_not_refused_data` | if the data of such a request is offered together with it, it is written behind the previous burst |
| C98 | `c98_starved` | reads have priority: a port on which a read is asked for in every cycle accepts no write request |
| C99 | `c99_not_initvals` | `CustomCounter` without `reset` ignores `initvals` (registers have `initval=0`, stream/stypes.py:3865) |
| C99 | `c99_point`, `c99_not_point` | the values are taken apart with `Cast`, which shifts by the point, not with `ReinterpretCast` (stream/stypes.py:3921) |
| C99 | `c99_args` | `args` are cut to the number of variables; if there are fewer the reset signal is passed as an argument (stream/stypes.py:3873) |
| C99 | `c99_not_valid` | the counter ignores `svalid` if `initiation_interval` is 1 (stream/stypes.py:3859-3861) |
| C100 | `c100_not_plusN` | `PlusN` is declared signed if one operand is, while the sum is evaluated unsigned if one operand is (stream/stypes.py:1502-1519, 2471-2475) |
| C100 | `c100_not_average` | `AddTree` has the width of an operand, so the sum of `Average` overflows (stream/stypes.py:2659-2664) |
| C100 | `c100_average_pow2`, `c100_average_other`, `c100_not_round` | the shift of a power of two rounds down, the division by another number towards zero (stream/stypes.py:2662-2664, 2671-2673) |
| C101 | `c101_not_clock` | the loop of the Verilator program toggles the clock already at time 0 (simulation/verilator_template.cpp:54-56), the Verilog block after one half period (simulation/simulation.py:64) |
| C101 | `c101_not_reset` | delays in the statements of `setup_reset` do not count for Verilator (simulation/simulation.py:94) |
| C101 | `c101_no_inits` | `for init in inits_list` runs over the keys of a dictionary, which are resets, so `inits` is always empty (simulation/simulation.py:458-463) |
| C102 | `c102_not_same`, `c102_not_same_witness` | a Seq none of whose registers has an initial value gets no reset branch (seq/seq.py:383); merged into one that has, its statements stop while reset is asserted |
| C103 | `c103_not_channel` | channels are recognised by `name.startswith(prefix + '_r')` (types/axi.py:4758), which all signals of an interface `myaxi_ram` satisfy |
| C103 | `c103_not_use_wire` | only a `Reg` is taken for an input of the design (types/axi.py:4759, 4780) |
| C104 | `c104_not_range` | the range of a memory map is the number of registers (at least 4096) rounded up to a power of two, though registers are 4 bytes apart (types/componentgen.py:615, thread/axis.py:85-86) |
| C105 | `c105_not_fixed` | `print(v)` of a fixed-point value with a negative point multiplies by `2 ** value.point` instead of `2 ** -value.point` (thread/compiler.py:504, 523; right at 466, 485) |
| C105 | `c105_not_percent` | percent signs of plain strings are not doubled: `print("%d", x)` displays `x` for the string and has no value for the second directive (thread/compiler.py:515-517) |
| C105 | `c105_not_width` | `f"{x:5}b"` becomes `%5b`: the value is shown in binary and the text `b` is lost (thread/compiler.py:568) |
| C106 | `c106_not_fair` | `pull_request`: `arready` needs `prev_awvalid` low, so reads wait as long as write addresses are offered, accepted or not (types/axi.py:2436-2437) |
| C106 | `c106_not_private` | each call tests the common ready signal, so a request accepted for one call is reported by all (types/axi.py:2426-2428, 2478-2480 with `_connect_ready`) |
| C106 | `c106_not_mixed` | `pull_request` drops a read transferred together with a write, which another call of `pull_read_request` allows (types/axi.py:2450-2455) |
| C107 | `c107_not_cond` | `Cond` does not set `attr_names` and inherits `args`, `kwargs`, which are empty: any two are equal (core/vtypes.py:1564, 1833) |
| C107 | `c107_not_cat` | tuples are compared with `zip`, so a longer `Cat` equals its beginning (core/vtypes.py:198) |
| C107 | `c107_not_int` | `attr_names` of constants is `value` only: `Int(1, width=1)` equals `Int(1, width=8)` (core/vtypes.py:780) |
| C108 | `c108_not_module` | `copy_stream_cache` is global and keyed by the names of the RAMs: in a second module with RAMs of the same names the stream of the first module is used (thread/util.py:8-9, 18-19) |
| C108 | `c108_not_both` | `copy_pattern` makes a stream named `copy_...` as `copy` does: the second one made for the same RAMs raises (thread/util.py:44) |
| C109 | `c109_not_kept` | a register without initial value assigned in a concatenation is set to x by the reset instead of left alone (seq/reset_visitor.py:67-68) |
| C109 | `c109_not_high` | bit targets above bit 31 are reset to 0: the initial value is shifted as a 32-bit literal (seq/reset_visitor.py:41-42) |
| C109 | `c109_raises` | `visit_Pointer` accepts no `vtypes.Int` as initial value, `visit_Slice` and `visit__Variable` do (seq/reset_visitor.py:35-40) |
| C110 | `c110_not_same` | for a register with an initial value and a reset statement of the user, `Seq` resets to the initial value (generated statements come last), `FSM` to the value of the user (first statement kept) (seq/seq.py:378, fsm/fsm.py:715-754) |
| C110 | `c110_not_parts` | `FSM.make_reset` compares targets as strings: a bit that is a target of its own overwrites the statement of the user for the register (fsm/fsm.py:737-743) |
