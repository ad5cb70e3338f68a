{
 "claims": [
  {
   "property": "C01",
   "status": "proved",
   "theorems": [
    "Fifo.c01_fifo_lossless",
    "Fifo.c01_fifo_async_lossless"
   ],
   "note": "any address width, any word type, any input trace from reset"
  },
  {
   "property": "C02",
   "status": "proved",
   "theorems": [
    "ThreadFifo.c02_count",
    "ThreadFifo.c02_flow_control",
    "ThreadFifo.c02_ready",
    "ThreadFifo.c02_has_space",
    "ThreadFifo.c02_enq_once",
    "ThreadFifo.c02_try_enq",
    "ThreadFifo.c02_deq_once",
    "ThreadFifo.c02_try_deq",
    "ThreadFifo.c02_width_one_never_ready"
   ],
   "note": "any address width and trace; the width-1 FIFO that never becomes ready is recorded as a disagreement"
  },
  {
   "property": "C03",
   "status": "proved",
   "theorems": [
    "Skid.c03_skid_lossless",
    "Skid.c03_skid_stable",
    "Skid.c03_skid_ready_registered",
    "Skid.c03_skid_full_throughput",
    "Skid.c03_skid_payload"
   ],
   "note": "chains of any length, any payload"
  },
  {
   "property": "C04",
   "status": "proved",
   "theorems": [
    "Mul.c04_mul_latency",
    "Mul.c04_mul_exact",
    "Mul.c04_madd_latency",
    "Mul.c04_mul_valid",
    "Mul.c04_mul_valid_reset"
   ],
   "note": "any operand widths and signedness, any depth of at least 2, any initial register contents, any enable schedule"
  },
  {
   "property": "C05",
   "status": "proved",
   "theorems": [
    "Div.c05_div_unsigned",
    "Div.c05_div_by_zero_unsigned",
    "Div.c05_div_signed",
    "Div.c05_div_signed_mod_exact",
    "Div.c05_div_signed_quot_exact"
   ],
   "note": "every width W > 0"
  },
  {
   "property": "C06",
   "status": "proved",
   "theorems": [
    "Div.c06_div_pipeline",
    "Div.c06_div_reset"
   ],
   "note": "any initial register contents, any operand and stall schedule"
  },
  {
   "property": "C07",
   "status": "proved",
   "theorems": [
    "Ram.c07_ram_content",
    "Ram.c07_ram_content_unique",
    "Ram.c07_ram_read",
    "Ram.c07_ram_async",
    "Ram.c07_ram_init"
   ],
   "note": "any write order between ports"
  },
  {
   "property": "C08",
   "status": "proved",
   "theorems": [
    "Burst.c08_read_burst",
    "Burst.c08_read_burst_complete",
    "Burst.c08_read_burst_zero",
    "Burst.c08_read_burst_quit"
   ],
   "note": "RAM port used by the burst alone, memory constant during the burst"
  },
  {
   "property": "C09",
   "status": "proved",
   "theorems": [
    "Burst.c09_write_burst",
    "Burst.c09_taken_all",
    "Burst.c09_write_burst_quit"
   ],
   "note": ""
  },
  {
   "property": "C10",
   "status": "proved",
   "theorems": [
    "Multibank.c10_address_bijection",
    "Multibank.c10_flat_memory",
    "Multibank.c10_packed_layout",
    "Multibank.c10_packed_round_trip",
    "Multibank.c10_packed_field",
    "Multibank.c10_packed_burst"
   ],
   "note": "one port; block-wise bursts are separate"
  },
  {
   "property": "C100",
   "status": "proved",
   "theorems": [
    "SAvg.c100_plusN",
    "SAvg.c100_not_plusN",
    "SAvg.c100_average_pow2",
    "SAvg.c100_average_other",
    "SAvg.c100_average_unsigned",
    "SAvg.c100_not_average",
    "SAvg.c100_round_pow2",
    "SAvg.c100_round_other",
    "SAvg.c100_round_unsigned",
    "SAvg.c100_not_round",
    "SAvg.c100_sign",
    "SAvg.c100_complement2",
    "SAvg.c100_abs"
   ],
   "note": "PlusN, Average, AverageRound, Complement2, Abs and Sign on integers; the sums overflow and mixed signedness is wrong"
  },
  {
   "property": "C101",
   "status": "proved",
   "theorems": [
    "TBench.c101_clock",
    "TBench.c101_clock_zero",
    "TBench.c101_reset",
    "TBench.c101_edges",
    "TBench.c101_reset_seen",
    "TBench.c101_step",
    "TBench.c101_cpp_clock",
    "TBench.c101_cpp_reset",
    "TBench.c101_cpp_inputs",
    "TBench.c101_cpp_end",
    "TBench.c101_not_clock",
    "TBench.c101_same_reset",
    "TBench.c101_not_reset",
    "TBench.c101_no_inits"
   ],
   "note": "the Verilog blocks and the Verilator program; the two clocks are opposite at every time"
  },
  {
   "property": "C102",
   "status": "proved",
   "theorems": [
    "Hdl.c102_raises",
    "Hdl.c102_priority",
    "Hdl.c102_reset",
    "Hdl.c102_same",
    "Hdl.c102_not_same",
    "Hdl.c102_not_same_witness",
    "Hdl.c102_source"
   ],
   "note": "a register name is assumed to denote one object (Module.Reg raises otherwise); If objects of the source extended after the merge are not followed"
  },
  {
   "property": "C103",
   "status": "proved",
   "theorems": [
    "AxiSplit.c103_channels",
    "AxiSplit.c103_outputs",
    "AxiSplit.c103_inputs",
    "AxiSplit.c103_driven",
    "AxiSplit.c103_one_driver",
    "AxiSplit.c103_raises",
    "AxiSplit.c103_not_channel",
    "AxiSplit.c103_not_use_wire"
   ],
   "note": "the temporary wire of Reg.connect is left out"
  },
  {
   "property": "C104",
   "status": "proved",
   "theorems": [
    "IpXact.c104_clocks",
    "IpXact.c104_busif",
    "IpXact.c104_bus_has_clock",
    "IpXact.c104_assoc_resets",
    "IpXact.c104_resets",
    "IpXact.c104_range",
    "IpXact.c104_not_range",
    "IpXact.c104_ports"
   ],
   "note": "math.log is taken as exact; the XML text is not modelled"
  },
  {
   "property": "C105",
   "status": "proved",
   "theorems": [
    "ThreadPrint.c105_line",
    "ThreadPrint.c105_raises",
    "ThreadPrint.c105_not_fixed",
    "ThreadPrint.c105_not_percent",
    "ThreadPrint.c105_not_width"
   ],
   "note": "all argument lists; the ways to show a value are arbitrary; three disagreements proved"
  },
  {
   "property": "C106",
   "status": "proved",
   "theorems": [
    "AxiPull.c106_write",
    "AxiPull.c106_read",
    "AxiPull.c106_quiet",
    "AxiPull.c106_kept",
    "AxiPull.c106_pace",
    "AxiPull.c106_exclusive",
    "AxiPull.c106_progress",
    "AxiPull.c106_response",
    "AxiPull.c106_ids",
    "AxiPull.c106_not_fair",
    "AxiPull.c106_not_private",
    "AxiPull.c106_not_mixed"
   ],
   "note": "any number of calls, any conditions and inputs; three disagreements proved"
  },
  {
   "property": "C107",
   "status": "proved",
   "theorems": [
    "VEquals.c107_refl",
    "VEquals.c107_symm",
    "VEquals.c107_sound",
    "VEquals.c107_cat",
    "VEquals.c107_not_cond",
    "VEquals.c107_not_cat",
    "VEquals.c107_not_int"
   ],
   "note": "all pairs of expressions; three disagreements proved"
  },
  {
   "property": "C108",
   "status": "proved",
   "theorems": [
    "CopyCache.c108_shared",
    "CopyCache.c108_names",
    "CopyCache.c108_module",
    "CopyCache.c108_one_kind",
    "CopyCache.c108_not_module",
    "CopyCache.c108_not_both"
   ],
   "note": "all sequences of calls; two disagreements proved"
  },
  {
   "property": "C109",
   "status": "proved",
   "theorems": [
    "PartReset.c109_reset",
    "PartReset.c109_slice",
    "PartReset.c109_kept",
    "PartReset.c109_no_init",
    "PartReset.c109_not_kept",
    "PartReset.c109_not_high",
    "PartReset.c109_raises"
   ],
   "note": "constant positions; literals of 32 bits; the code departs for concatenations with registers without initial value, bits above 31 and vtypes.Int as initial value (negative theorems)"
  },
  {
   "property": "C11",
   "status": "proved",
   "theorems": [
    "Hdl.c11_if_chain",
    "Hdl.c11_then",
    "Hdl.c11_else_if_drops_condition",
    "Hdl.SeqSt.c11_nested_if"
   ],
   "note": "chains of any length on any builder state; seq.Else.If(d) dropping its condition is recorded as a disagreement"
  },
  {
   "property": "C110",
   "status": "proved",
   "theorems": [
    "UserReset.c110_seq_init",
    "UserReset.c110_seq_user",
    "UserReset.c110_fsm_user",
    "UserReset.c110_not_same",
    "UserReset.c110_not_parts"
   ],
   "note": "targets without concatenations; Seq and FSM disagree on which statement wins (negative theorems)"
  },
  {
   "property": "C12",
   "status": "proved",
   "theorems": [
    "Hdl.c12_priority",
    "Hdl.c12_add"
   ],
   "note": "every design reachable by API calls, any delays"
  },
  {
   "property": "C13",
   "status": "proved",
   "theorems": [
    "Hdl.c13_delay",
    "Hdl.c13_multi_bit_condition_lost"
   ],
   "note": "any n, any earlier and later calls, any execution; a single multi-bit condition losing its upper bits is recorded as a disagreement"
  },
  {
   "property": "C14",
   "status": "proved",
   "theorems": [
    "Hdl.c14_prev",
    "Hdl.c14_prev_cond",
    "Hdl.c14_condition_ignored",
    "Hdl.c14_initval_ignored",
    "Hdl.c14_prefix_collision"
   ],
   "note": "any calls before and after; three disagreements about the register cache"
  },
  {
   "property": "C15",
   "status": "proved",
   "theorems": [
    "Hdl.c15_reset",
    "Hdl.c15_no_initial_values",
    "Hdl.c15_fsm_reset"
   ],
   "note": "Seq and FSM; a name is assumed to denote one register object (Module.Reg raises otherwise)"
  },
  {
   "property": "C16",
   "status": "proved",
   "theorems": [
    "Hdl.c16_fresh",
    "Hdl.c16_goto",
    "Hdl.c16_goto_cond",
    "Hdl.c16_goto_next",
    "Hdl.c16_goto_from",
    "Hdl.c16_add",
    "Hdl.c16_other"
   ],
   "note": "compositional: effect of each API call on the next state function, from an empty FSM"
  },
  {
   "property": "C17",
   "status": "proved",
   "theorems": [
    "Hdl.c17_case_eq_if",
    "Hdl.c17_bodies"
   ],
   "note": ""
  },
  {
   "property": "C18",
   "status": "proved",
   "theorems": [
    "Hdl.c18_delay",
    "Hdl.c18_other_state_lost"
   ],
   "note": "c18_other_state_lost: with When(i) for another state the statement is lost"
  },
  {
   "property": "C19",
   "status": "proved",
   "theorems": [
    "Thr.c19_final",
    "Thr.c19_terminates",
    "Thr.c19_reset",
    "Thr.c19_range",
    "Thr.c19_not_break",
    "Thr.c19_not_while_call",
    "Thr.c19_not_range_end",
    "Thr.c19_not_range_down",
    "Thr.c19_for_list"
   ],
   "note": "Both directions of the simulation, on the clock edges of the generated FSM; the four c19_not_ theorems are disagreements."
  },
  {
   "property": "C20",
   "status": "proved",
   "theorems": [
    "Thr.c20_innermost",
    "Thr.c20_not_innermost"
   ],
   "note": "c20_not_innermost is a disagreement."
  },
  {
   "property": "C21",
   "status": "proved",
   "theorems": [
    "Hdl.c21_exclusion",
    "Hdl.c21_try_fails"
   ],
   "note": "Any number of threads, each an arbitrary FSM program with any number of lock/try_lock/unlock calls (Built); all runs, reset included. Hypothesis Clean: the user adds no goto of their own in the states of a mutex call."
  },
  {
   "property": "C22",
   "status": "proved",
   "theorems": [
    "Hdl.c22_progress",
    "Hdl.c22_unlock",
    "Hdl.c22_reset",
    "Hdl.c22_free",
    "Hdl.c22_stays_free"
   ],
   "note": "Same systems as C21. The hypothesis that nobody unlocks in the same cycle is needed: a stray unlock by the previous owner cancels a simultaneous request."
  },
  {
   "property": "C23",
   "status": "proved",
   "theorems": [
    "Hdl.c23_together",
    "Hdl.c23_released",
    "Hdl.c23_last",
    "Hdl.c23_rounds",
    "Hdl.c23_reset"
   ],
   "note": "Any number of threads (as many as the barrier was made for), any FSM programs with any number of wait calls, every schedule since the last reset. Hypothesis Clean: no user goto in or into the middle of a wait."
  },
  {
   "property": "C24",
   "status": "proved",
   "theorems": [
    "Sch.c24_total",
    "Sch.c24_operands",
    "Sch.c24_same_graph",
    "Sch.c24_balanced",
    "Sch.c24_depth",
    "Sch.c24_allocation",
    "Sch.c24_values_lead",
    "Sch.c24_values",
    "Sch.c24_stateless",
    "Sch.c24_not_acc_without_valid",
    "Sch.pipe_drives",
    "Sch.prev_drives",
    "Sch.acc_drives",
    "Sch.times_drives"
   ],
   "note": "Operators enter by contract Op.Drives, derived for generic stateless operators, delays, prev, accumulators and multipliers from their registers. Aliased variables and initiation intervals other than 1 are outside the model."
  },
  {
   "property": "C25",
   "status": "proved",
   "theorems": [
    "Sch.c25_beats",
    "Sch.c25_map",
    "Sch.c25_control",
    "Sch.c25_not_iready_without_oready",
    "Sch.c25_not_ovalid_without_ivalid",
    "Sch.c25_not_without_ivalid"
   ],
   "note": "Graphs of stateless operators and accumulators; prev is covered by c24_values."
  },
  {
   "property": "C26",
   "status": "proved",
   "theorems": [
    "Stream.c26_fold",
    "Stream.c26_fold_reset",
    "Stream.c26_idle",
    "Stream.c26_size",
    "Stream.c26_size_reset",
    "Stream.c26_interval",
    "Stream.c26_interval_stuck",
    "Stream.c26_interval_stuck_reachable",
    "Stream.c26_reset_disabled",
    "Stream.c26_add",
    "Stream.c26_sub",
    "Stream.c26_max",
    "Stream.c26_min"
   ],
   "note": "For the circuit of _Accumulator; c26_interval_stuck and c26_reset_disabled are counterexamples that bound the claim. ReduceMul and ReduceDiv are not modelled."
  },
  {
   "property": "C27",
   "status": "proved",
   "theorems": [
    "Stream.c27_plain",
    "Stream.c27_plain_reset",
    "Stream.c27_size",
    "Stream.c27_size_reset",
    "Stream.c27_offset",
    "Stream.c27_idle",
    "Stream.c27_reset_disabled",
    "Stream.c27_reset_interval",
    "Stream.c27_pulse",
    "Stream.c27_pulse_interval"
   ],
   "note": "c27_reset_disabled, c27_reset_interval and c27_pulse_interval are counterexamples that bound the claim."
  },
  {
   "property": "C28",
   "status": "proved",
   "theorems": [
    "Stream.c28_injective32",
    "Stream.c28_injective64",
    "Stream.c28_bijective32",
    "Stream.c28_bijective64",
    "Stream.c28_zero",
    "Stream.c28_never_zero32",
    "Stream.c28_never_zero64",
    "Stream.c28_never_merge",
    "Stream.c28_outputs"
   ],
   "note": ""
  },
  {
   "property": "C29",
   "status": "proved",
   "theorems": [
    "Stream.c29_nearest",
    "Stream.c29_zero",
    "Stream.c29_unique",
    "Stream.c29_dynamic",
    "Stream.c29_too_far",
    "Stream.c29_unsigned"
   ],
   "note": "c29_too_far and c29_unsigned are counterexamples that bound the claim."
  },
  {
   "property": "C30",
   "status": "proved",
   "theorems": [
    "Stream.c30_fold",
    "Stream.c30_depth",
    "Stream.c30_addTree",
    "Stream.c30_addTree_mixed",
    "Stream.c30_max",
    "Stream.c30_min",
    "Stream.c30_max_mixed"
   ],
   "note": "c30_addTree_mixed and c30_max_mixed are counterexamples that bound the claim."
  },
  {
   "property": "C31",
   "status": "proved",
   "theorems": [
    "Pat.c31_source",
    "Pat.c31_pad",
    "Pat.c31_sink"
   ],
   "note": "Source and sink pattern generators (thread/stream.py:2121-2221, 2797-2913) without stop and reset; offsets specified by nested loops."
  },
  {
   "property": "C32",
   "status": "proved",
   "theorems": [
    "Pat.c32_order",
    "Pat.c32_default",
    "Pat.c32_reads",
    "Pat.c32_negative_axis"
   ],
   "note": "Integer shapes; negative axes are a proved disagreement."
  },
  {
   "property": "C33",
   "status": "proved",
   "theorems": [
    "Pat.c33_equal_sizes",
    "Pat.c33_different_sizes",
    "Pat.c33_restart"
   ],
   "note": "Holds for patterns of equal sizes; the general claim is refuted with concrete runs."
  },
  {
   "property": "C34",
   "status": "proved",
   "theorems": [
    "Dma.c34_bursts",
    "Dma.c34_terminates",
    "Dma.c34_zero",
    "Dma.c34_read_bus",
    "Dma.c34_write_bus",
    "Dma.c34_zero_read",
    "Dma.c34_narrow_size",
    "Dma.c34_wide_size"
   ],
   "note": "All sizes n>=1, aligned addresses, power-of-two word widths, burst lengths up to 256 and all full/ack schedules. c34_zero_read proves the disagreement for reads of size 0."
  },
  {
   "property": "C35",
   "status": "proved",
   "theorems": [
    "Axi.c35_write_request",
    "Axi.c35_read_request",
    "Axi.c35_write_data",
    "Axi.c35_lite_write_request",
    "Axi.c35_lite_push",
    "Axi.c35_lite_write_data",
    "Axi.c35_stream_write",
    "Axi.Behaves.all",
    "Axi.c35_simultaneous"
   ],
   "note": "The Seq calls each method makes are modelled on the Seq builder model, for any list of call sites. Behaves.all gives the exactly-once reading when at most one site is acknowledged per edge; c35_simultaneous shows what happens otherwise."
  },
  {
   "property": "C36",
   "status": "proved",
   "theorems": [
    "Axi.c36_outstanding",
    "Axi.c36_lite",
    "Axi.c36_lite_two_requests"
   ],
   "note": "The counter Seq and the address-channel Seq run together. Hypothesis: a response is only accepted for an accepted, unanswered address. c36_lite_two_requests is the negation of the AXI4-Lite comment."
  },
  {
   "property": "C37",
   "status": "proved",
   "theorems": [
    "Dma.c37_read_narrow",
    "Dma.c37_read_narrow_ram",
    "Dma.c37_read_wide",
    "Dma.c37_read_wide_progress",
    "Dma.c37_read_wide_ram",
    "Dma.c37_read_same",
    "Dma.c37_write_same",
    "Dma.c37_write_narrow",
    "Dma.c37_write_wide",
    "Dma.c37_round_trip_narrow",
    "Dma.c37_round_trip_wide",
    "Dma.c37_read_narrow_not_pow2"
   ],
   "note": "Data machines composed with the RAM burst machines of C08/C09. c37_read_narrow_not_pow2 proves the disagreement for ratios that are not powers of two."
  },
  {
   "property": "C38",
   "status": "proved",
   "theorems": [
    "Dma.c38_round_trip",
    "Dma.c38_unchanged"
   ],
   "note": "Pack and unpack as Verilog concatenation and slices; every field wire comes back, for all widths >= 1 and all argument expressions; arguments that fit are unchanged."
  },
  {
   "property": "C39",
   "status": "proved",
   "theorems": [
    "Fixed.c39_int",
    "Fixed.c39_split",
    "Fixed.c39_negative_point",
    "Fixed.c39_widen",
    "Fixed.c39_narrow",
    "Fixed.c39_roundtrip",
    "Fixed.c39_intPart",
    "Fixed.c39_decPart"
   ],
   "note": "Trees of types/fixed.py evaluated with the sizing rules of IEEE 1364. c39_negative_point is the case that raises."
  },
  {
   "property": "C40",
   "status": "proved",
   "theorems": [
    "Fixed.c40_plus",
    "Fixed.c40_minus",
    "Fixed.c40_compare",
    "Fixed.c40_times",
    "Fixed.c40_compare_overflow",
    "Fixed.c40_times_overflow",
    "Fixed.c40_mixed_sign"
   ],
   "note": "The last three theorems are concrete cases in which the unrestricted claim is false. Division is not covered."
  },
  {
   "property": "C41",
   "status": "proved",
   "theorems": [
    "Saturate.clamp_spec",
    "Saturate.c41_add",
    "Saturate.c41_sub",
    "Saturate.c41_add_unsigned",
    "Saturate.c41_sub_unsigned",
    "Saturate.c41_write",
    "Saturate.c41_wide",
    "Saturate.c41_unsigned_to_signed",
    "Saturate.c41_negative_to_unsigned",
    "Saturate.c41_unsigned_other_bound",
    "Saturate.c41_no_min"
   ],
   "note": "The last five theorems are cases in which the unrestricted claim is false."
  },
  {
   "property": "C42",
   "status": "proved",
   "theorems": [
    "Index.c42_index",
    "Index.c42_slice",
    "Index.c42_step",
    "Index.c42_step_down",
    "Index.c42_reverse",
    "Index.c42_no_clip"
   ],
   "note": "c42_reverse and c42_no_clip are where the library departs from Python."
  },
  {
   "property": "C43",
   "status": "proved",
   "theorems": [
    "Literal.c43_roundtrip",
    "Literal.c43_text",
    "Literal.c43_stable",
    "Literal.c43_verilog",
    "Literal.c43_negative"
   ],
   "note": "Text as lists of characters. c43_negative and the width clause of c43_roundtrip say exactly what the parsers lose."
  },
  {
   "property": "C44",
   "status": "proved",
   "theorems": [
    "Resolver.c44_value",
    "Resolver.c44_fold",
    "Resolver.c44_params",
    "Resolver.c44_params_total",
    "Resolver.c44_cat",
    "Resolver.c44_repeat",
    "Resolver.c44_breaks_width",
    "Resolver.c44_breaks_wide",
    "Resolver.c44_breaks_sign",
    "Resolver.c44_breaks_cat",
    "Resolver.c44_breaks_cat_sum",
    "Resolver.c44_breaks_not",
    "Resolver.c44_breaks_sra",
    "Resolver.c44_breaks_div",
    "Resolver.c44_breaks_mod",
    "Resolver.c44_breaks_signed"
   ],
   "note": "Value of the resolved expression against the Verilog value before; the c44_breaks theorems show that the unconditional claim is false. Power, Xnor and reductions are not modelled."
  },
  {
   "property": "C45",
   "status": "proved",
   "theorems": [
    "Module.c45_tmp_distinct"
   ],
   "note": "all tmp names of any call sequence are pairwise distinct"
  },
  {
   "property": "C46",
   "status": "proved",
   "theorems": [
    "Module.c46_selected",
    "Module.c46_copy",
    "Module.c46_width",
    "Module.c46_connect",
    "Module.c46_strict",
    "Module.c46_copy_then_connect",
    "Module.c46_copy_twice",
    "Module.c46_as_vars"
   ],
   "note": "selection, renaming, widths, connection; copying twice duplicates names silently (c46_copy_twice)"
  },
  {
   "property": "C47",
   "status": "proved",
   "theorems": [
    "Hdl.c47_add_mux",
    "Hdl.c47_add_mux_fresh",
    "Hdl.c47_enable",
    "Hdl.c47_disable",
    "Hdl.c47_disable_fresh",
    "Hdl.c47_overwrite"
   ],
   "note": "the original of a wire never assigned before is unknown for add_mux, 0 for add_enable_cond, 1 for add_disable_cond"
  },
  {
   "property": "C48",
   "status": "proved",
   "theorems": [
    "Hdl.c48_mux",
    "Hdl.c48_pattern_mux",
    "Hdl.c48_pattern_mux_only",
    "Hdl.c48_pattern_if",
    "Hdl.c48_pattern_if_total"
   ],
   "note": ""
  },
  {
   "property": "C49",
   "status": "proved",
   "theorems": [
    "Hdl.c49_chain",
    "Hdl.c49_then_goto",
    "Hdl.c49_then_goto_next",
    "Hdl.c49_jumps",
    "Hdl.c49_else_raises",
    "Hdl.c49_not_after_if",
    "Hdl.FsmSt.c49_nested_if",
    "Hdl.FsmSt.c49_nested_goto"
   ],
   "note": "c49_not_after_if: with an open If statement the Else of Else.goto stays pending and captures the next statement"
  },
  {
   "property": "C50",
   "status": "proved",
   "theorems": [
    "Hdl.c50_keep",
    "Hdl.c50_fsm_keep"
   ],
   "note": "for an FSM the statement is written for the current state (When naming another state: see c18_other_state_lost)"
  },
  {
   "property": "C51",
   "status": "proved",
   "theorems": [
    "Module.c51_ports_unique",
    "Module.c51_defined_once",
    "Module.c51_wire_and_reg",
    "Module.c51_wire_after_reg"
   ],
   "note": "c51_wire_and_reg shows the exception named in the statement"
  },
  {
   "property": "C52",
   "status": "proved",
   "theorems": [
    "Dma.c37_write_same",
    "Dma.c37_write_narrow",
    "Dma.c37_write_wide"
   ],
   "note": "Second and third conjuncts of the write theorems."
  },
  {
   "property": "C53",
   "status": "proved",
   "theorems": [
    "Uart.c53_link",
    "Uart.c53_send",
    "Uart.c53_tx",
    "Uart.c53_rx",
    "Uart.c53_glitch",
    "Uart.c53_tolerance",
    "Uart.c53_not_w1"
   ],
   "note": "W < 2 is a disagreement (c53_not_w1)."
  },
  {
   "property": "C54",
   "status": "proved",
   "theorems": [
    "AxiReg.c54_order",
    "AxiReg.c54_write_ready",
    "AxiReg.c54_read_data",
    "AxiReg.c54_accept",
    "AxiReg.c54_register",
    "AxiReg.c54_thread",
    "AxiReg.c54_coherent",
    "AxiReg.c54_map",
    "AxiReg.c54_not_fair",
    "AxiReg.c54_not_strobe",
    "AxiReg.c54_not_wait_flag"
   ],
   "note": "all bus behaviours; three disagreements proved (c54_not_fair, c54_not_strobe, c54_not_wait_flag)"
  },
  {
   "property": "C55",
   "status": "proved",
   "theorems": [
    "AxiReg.c55_read",
    "AxiReg.c55_read_stable",
    "AxiReg.c55_read_progress",
    "AxiReg.c55_write",
    "AxiReg.c55_register",
    "AxiReg.c55_coherent",
    "AxiReg.c55_not_length",
    "AxiReg.c55_not_length_run",
    "AxiReg.c55_not_rid"
   ],
   "note": "exact number of beats proved, which for bursts of two or more beats is one more than requested; rid disagreement proved"
  },
  {
   "property": "C56",
   "status": "proved",
   "theorems": [
    "AxiMem.c56_write",
    "AxiMem.c56_contents",
    "AxiMem.c56_read",
    "AxiMem.c56_read_stable",
    "AxiMem.c56_read_progress",
    "AxiMem.c56_not_bready",
    "AxiMem.c56_not_interval1",
    "AxiMem.c56_not_small_fifo"
   ],
   "note": "order, contents, stability and progress for all runs; three disagreements proved as negations"
  },
  {
   "property": "C57",
   "status": "proved",
   "theorems": [
    "AxiWord.c57_read_bit",
    "AxiWord.c57_read",
    "AxiWord.c57_fit",
    "AxiWord.c57_write_bit",
    "AxiWord.c57_write",
    "AxiWord.c57_round",
    "AxiWord.c57_not_width"
   ],
   "note": "exact widths for which word access is correct; negation for the others"
  },
  {
   "property": "C58",
   "status": "proved",
   "theorems": [
    "Dataflow.Run.c58_op",
    "Dataflow.Run.c58_stream",
    "Dataflow.Run.c58_shared",
    "Dataflow.Run.c58_lockstep",
    "Dataflow.Run.c58_latency",
    "Dataflow.Run.c58_hold",
    "Dataflow.c58_not_late",
    "Dataflow.c58_not_outputs",
    "Dataflow.c58_not_mul"
   ],
   "note": "c58_stream under the proviso of equally ready operands, c58_shared and c58_lockstep give it from the network and the ports, the c58_not_ theorems show that values are lost without it"
  },
  {
   "property": "C59",
   "status": "proved",
   "theorems": [
    "Pipe.c59_align",
    "Pipe.c59_output",
    "Pipe.c59_max",
    "Pipe.c59_not_unary",
    "Pipe.c59_not_acc",
    "Pipe.c59_not_width",
    "Pipe.c59_not_const"
   ],
   "note": "A program is a list of calls; specAll gives its values by cycle without stages. c59_align for every variable, c59_output for the outputs (no accumulators, values within the width of the pipeline); the four disagreements are proved on concrete programs."
  },
  {
   "property": "C60",
   "status": "proved",
   "theorems": [
    "Pipe.c60_stall",
    "Pipe.c60_output",
    "Pipe.c60_tokens",
    "Pipe.c60_free",
    "Pipe.c60_not_nested"
   ],
   "note": "On the handshake of C58. c60_stall: operands are ready together (Plain: no accumulator, no nested expression, nothing left over), by c58_lockstep; c60_output and c60_tokens: values, for any pipeline whose operands are ready together; c60_free: latency and throughput; c60_not_nested: a nested expression loses data after one stalled cycle."
  },
  {
   "property": "C61",
   "status": "proved",
   "theorems": [
    "ThreadRun.c61_call",
    "ThreadRun.c61_run",
    "ThreadRun.c61_join",
    "ThreadRun.c61_starts",
    "ThreadRun.c61_called",
    "ThreadRun.c61_terminates",
    "ThreadRun.c61_bind",
    "ThreadRun.c61_too_many",
    "ThreadRun.c61_not_kwargs",
    "ThreadRun.c61_not_missing",
    "ThreadRun.c61_not_reset_run",
    "ThreadRun.c61_not_no_reset",
    "ThreadRun.c61_not_running"
   ],
   "note": "Call discipline Disc; negations for the orders that lose a start and for keyword and missing arguments"
  },
  {
   "property": "C62",
   "status": "proved",
   "theorems": [
    "SRun.c62_reads",
    "SRun.c62_items",
    "SRun.c62_writes",
    "SRun.c62_join",
    "SRun.c62_join_long",
    "SRun.c62_joined",
    "SRun.c62_done",
    "SRun.c62_job",
    "SRun.c62_result",
    "SRun.normal_reads",
    "SRun.pattern_reads",
    "SRun.normal_writes",
    "SRun.pattern_writes",
    "SRun.c62_not_gap",
    "SRun.Ex.gap",
    "SRun.c62_not_chain",
    "SRun.Ex.chain",
    "SRun.c62_flush",
    "SRun.c62_lost",
    "SRun.c62_not_empty"
   ],
   "note": "normal_reads etc. and stdSpec: the library's generators keep the contracts the theorems are stated for; c62_not_gap, c62_not_chain, c62_flush, c62_lost, c62_not_empty: where the code does less"
  },
  {
   "property": "C63",
   "status": "proved",
   "theorems": [
    "Emit.c63_emit",
    "Emit.c63_expr",
    "Emit.c63_flat",
    "Emit.c63_verilator",
    "Emit.c63_not_delay",
    "Emit.c63_not_level",
    "Emit.c63_always"
   ],
   "note": "The trees of pyverilog are the output; its text generator is not part of the repository. Meaning is any structure Sem; Ex.sem is one. c63_not_delay, c63_not_level, c63_always: where the code does less"
  },
  {
   "property": "C64",
   "status": "proved",
   "theorems": [
    "Emit.c64_read",
    "Emit.c64_rewrite",
    "Emit.c64_fix",
    "Emit.c64_written",
    "Emit.c64_function",
    "Emit.c64_not_initial"
   ],
   "note": "pyverilog's text generator and parser are assumed to give the same tree back, except that a number with a minus sign becomes a negation (parsed). c64_function, c64_not_initial: where the code does less; fractions and calls of tasks are excluded by the model of the reader (readE, readS)"
  },
  {
   "property": "C65",
   "status": "proved",
   "theorems": [
    "Hier.c65_hierarchy",
    "Hier.c65_hooks",
    "Hier.c65_not_clash",
    "Hier.c65_not_else",
    "Hier.c65_not_hook",
    "Hier.c65_clash",
    "Hier.c65_overwrite",
    "Hier.c65_topClash",
    "Hier.c65_inElse",
    "Hier.c65_hookOrder"
   ],
   "note": "Every sequence of Module, GenerateFor, GenerateIf, Instance and add_hook calls whose instances satisfy AllOk; the c65_not_ theorems and the concrete runs show what is lost otherwise. Instances by string and StubModule are not modelled."
  },
  {
   "property": "C66",
   "status": "proved",
   "theorems": [
    "Block.c66_read_block",
    "Block.c66_one_bank",
    "Block.c66_write_block",
    "Block.c66_bcast",
    "Block.c66_packed",
    "Block.c66_not_wready",
    "Block.c66_not_packed"
   ],
   "note": "All schedules without a new request or quit during the transfer. Banks that are themselves multi-bank RAMs are not modelled. The done that write_burst_bcast returns is a Python list and no signal (ram.py:900-903); it is not modelled."
  },
  {
   "property": "C67",
   "status": "proved",
   "theorems": [
    "StreamIn.c67_same",
    "StreamIn.c67_one",
    "StreamIn.c67_not_two",
    "StreamIn.c67_narrow",
    "StreamIn.c67_narrow_fifo",
    "StreamIn.c67_narrow_not_pow2",
    "StreamIn.c67_wide",
    "StreamIn.c67_wide_fifo",
    "StreamIn.c67_not_wide_full",
    "StreamIn.c67_not_wide_size"
   ],
   "note": "whole histories from reset; the request FIFO is an input, the target FIFO is ThreadFifo in the _fifo theorems; disagreements c67_not_two, c67_not_wide_full, c67_not_wide_size, c67_narrow_not_pow2"
  },
  {
   "property": "C68",
   "status": "proved",
   "theorems": [
    "StreamOut.c68_same",
    "StreamOut.c68_same_progress",
    "StreamOut.c68_same_fifo",
    "StreamOut.fifo_reads",
    "StreamOut.c68_write_fence",
    "StreamOut.c68_narrow",
    "StreamOut.c68_narrow_progress",
    "StreamOut.c68_wide",
    "StreamOut.c68_wide_progress",
    "StreamOut.c68_ram_start",
    "StreamOut.c68_ram",
    "StreamOut.c68_not_two",
    "StreamOut.c68_not_zero",
    "StreamOut.c68_not_async",
    "StreamOut.c68_not_size",
    "StreamOut.c68_not_two_rams",
    "StreamOut.c68_not_zero_ram"
   ],
   "note": "whole histories from reset for FIFOs, one whole transfer for a RAM; the request FIFO is an input; the FIFO is any source that satisfies Reads, which the thread FIFO does (fifo_reads); disagreements in the c68_not_ theorems"
  },
  {
   "property": "C69",
   "status": "proved",
   "theorems": [
    "StreamMem.c69_read",
    "StreamMem.c69_read_progress",
    "StreamMem.c69_write",
    "StreamMem.c69_write_progress",
    "StreamMem.c69_dma_read",
    "StreamMem.c69_dma_write",
    "StreamMem.c69_not_zero_read",
    "StreamMem.c69_not_zero_write"
   ],
   "note": "whole histories from reset, composed with the request machine of C34; the request FIFO is any one that gives its entries in order (C02); disagreement for size 0"
  },
  {
   "property": "C70",
   "status": "proved",
   "theorems": [
    "Pool.c70_same",
    "Pool.c70_call",
    "Pool.c70_order",
    "Pool.c70_join",
    "Pool.c70_terminates",
    "Pool.c70_run",
    "Pool.c70_starts",
    "Pool.c70_reset",
    "Pool.c70_not_two_parents",
    "Pool.c70_not_tid",
    "Pool.c70_not_range"
   ],
   "note": "the discipline of calls is that of C61 without the statement between reset and run; bodies of threads are arbitrary; disagreements in the c70_not_ theorems and the runs after them"
  },
  {
   "property": "C71",
   "status": "proved",
   "theorems": [
    "Submod.c71_consts",
    "Submod.c71_params",
    "Submod.c71_width",
    "Submod.c71_connect",
    "Submod.c71_fresh",
    "Submod.c71_not_closed",
    "Submod.c71_not_raw",
    "Submod.c71_not_fresh",
    "Submod.c71_not_pattern",
    "Submod.c71_not_unknown",
    "Submod.c71_not_extra",
    "Submod.c71_not_link"
   ],
   "note": "Constants, connections, widths and names, with the seven ways in which the code departs from them"
  },
  {
   "property": "C72",
   "status": "proved",
   "theorems": [
    "RingBuf.c72_read",
    "RingBuf.c72_late",
    "RingBuf.c72_keep",
    "RingBuf.c72_sign",
    "RingBuf.c72_pad",
    "RingBuf.c72_pad_next",
    "RingBuf.c72_not_late",
    "RingBuf.c72_not_length",
    "RingBuf.c72_not_narrow",
    "RingBuf.c72_not_value",
    "RingBuf.c72_not_sign",
    "RingBuf.c72_not_pad",
    "RingBuf.c72_pad_keep"
   ],
   "note": "one read port; the stage of the read relative to the buffer is a parameter; disagreements in the c72_not_ theorems"
  },
  {
   "property": "C73",
   "status": "proved",
   "theorems": [
    "SArith.c73_attr",
    "SArith.c73_plus",
    "SArith.c73_minus",
    "SArith.c73_compare",
    "SArith.c73_times",
    "SArith.c73_divide",
    "SArith.c73_mod",
    "SArith.c73_sll",
    "SArith.c73_sra",
    "SArith.c73_srl",
    "SArith.c73_uminus",
    "SArith.c73_cond",
    "SArith.c73_cast",
    "SArith.c73_reinterpret",
    "SArith.c73_not_mixed",
    "SArith.c73_not_const",
    "SArith.c73_not_mixed_plus",
    "SArith.c73_not_compare",
    "SArith.c73_not_cond",
    "SArith.c73_not_divide",
    "SArith.c73_not_divide_mixed",
    "SArith.c73_not_mod",
    "SArith.c73_divide_unsigned_int"
   ],
   "note": "c73_not_* are the proved disagreements"
  },
  {
   "property": "C74",
   "status": "proved",
   "theorems": [
    "LineBuf.c74_queue",
    "LineBuf.c74_shift",
    "LineBuf.c74_shift2",
    "LineBuf.c74_round",
    "LineBuf.c74_window",
    "LineBuf.c74_not_width",
    "LineBuf.c74_not_valid",
    "LineBuf.c74_not_bits",
    "LineBuf.c74_not_next"
   ],
   "note": "at most one of the conditions per item; disagreements in the c74_not_ theorems"
  },
  {
   "property": "C75",
   "status": "proved",
   "theorems": [
    "MCyc.c75_mul",
    "MCyc.c75_product",
    "MCyc.c75_div",
    "MCyc.c75_quotient",
    "MCyc.c75_pace",
    "MCyc.c75_pass",
    "MCyc.c75_together",
    "MCyc.c75_divide",
    "MCyc.c75_divide_pace",
    "MCyc.c75_not_default",
    "MCyc.c75_not_init_point",
    "MCyc.c75_not_div_point"
   ],
   "note": "Proved for all widths, signednesses and input sequences. For a point above 0 the operand must fit the width of the accumulator and an unsigned accumulator of a signed operand needs point <= width (MulOk); ReduceDiv's operand must not be 0 and, for a signed accumulator, must fit its type (DivOk). The default initval and fixed-point initial values and quotients disagree (c75_not_*)."
  },
  {
   "property": "C76",
   "status": "proved",
   "theorems": [
    "SFifo.c76_order",
    "SFifo.c76_sink_order",
    "SFifo.c76_source",
    "SFifo.c76_join",
    "SFifo.c76_start",
    "SFifo.c76_result",
    "SFifo.c76_sink",
    "SFifo.c76_stall",
    "SFifo.c76_reason",
    "SFifo.c76_progress",
    "SFifo.c76_done",
    "SFifo.c76_not_small",
    "SFifo.c76_not_async",
    "SFifo.c76_not_late",
    "SFifo.c76_not_flush"
   ],
   "note": "Streams without substreams, parameters that change during a run, or terminate; each FIFO belongs to one source or sink. The data path is any one that moves with oready. SinkOk says that no sink is set while a job runs before its sinks have taken the setting."
  },
  {
   "property": "C77",
   "status": "proved",
   "theorems": [
    "Emit.c77_write",
    "Emit.c77_read",
    "Emit.c77_rewrite",
    "Emit.c77_not_delay",
    "Emit.c77_not_sign",
    "Emit.c77_not_shadow",
    "Emit.c77_not_local",
    "Emit.c77_not_unconnected",
    "Emit.c77_not_else",
    "Emit.c77_not_else_both",
    "Emit.c77_not_loop",
    "Emit.c77_not_initial",
    "Emit.c77_not_alias"
   ],
   "note": "Writing and reading of whole modules, with the meaning of a module given independently of both; the c77_not_* theorems are the disagreements."
  },
  {
   "property": "C78",
   "status": "proved",
   "theorems": [
    "Emit.c78_written",
    "Emit.c78_not_else",
    "Emit.c78_not_loop",
    "Emit.c78_not_initial"
   ],
   "note": "written text is a fixed point of reading and writing, for every module that meets the listed restrictions; the constructs for which it is not are shown"
  },
  {
   "property": "C79",
   "status": "proved",
   "theorems": [
    "Sub.c79_run",
    "Sub.c79_operator",
    "Sub.c79_lead",
    "Sub.c79_forgets",
    "Sub.c79_stateless",
    "Sub.c79_together",
    "Sub.c79_not_twice",
    "Sub.c79_not_nested",
    "Sub.c79_stalls",
    "Sub.c79_busy"
   ],
   "note": "For child graphs of stateless operators and accumulators; the widths of the variables and varying parameters of the child are not modelled. Negative theorems for a child used twice and for nested substreams under stalls."
  },
  {
   "property": "C80",
   "status": "proved",
   "theorems": [
    "Stream.c80_valid",
    "Stream.c80_valid_reset",
    "Stream.c80_not_disabled",
    "Stream.c80_not_disabled_reached",
    "Stream.c80_not_interval",
    "Stream.c80_counter",
    "Stream.c80_not_counter_step",
    "Stream.c80_argmax",
    "Stream.c80_argmax_first",
    "Stream.c80_argmin",
    "Stream.c80_argmin_first",
    "Stream.c80_not_argmax",
    "Stream.c80_not_argmax_initval"
   ],
   "note": "Blocks and index for all histories; the exceptions (enable without reset, interval, counter step, equal maxima, initval) are proved as such"
  },
  {
   "property": "C81",
   "status": "proved",
   "theorems": [
    "SRun.c81_parameter",
    "SRun.c81_empty",
    "SRun.c81_apart",
    "SRun.c81_result",
    "SFifo.c81_stalled",
    "SFifo.c81_empty_stalled",
    "SRun.c81_not_empty",
    "SFifo.c81_not_restart",
    "SFifo.Ex81.restart"
   ],
   "note": "Positive part for all runs and stalls as stated; the two defects are proved as negative theorems with witnesses."
  },
  {
   "property": "C82",
   "status": "proved",
   "theorems": [
    "ABind.c82_position",
    "ABind.c82_keyword",
    "ABind.c82_default",
    "ABind.c82_rest",
    "ABind.c82_frame",
    "ABind.c82_error",
    "ABind.c82_not_missing",
    "ABind.c82_not_rest",
    "ABind.c82_not_default",
    "ABind.c82_not_posonly",
    "ABind.c82_not_kwonly"
   ],
   "note": "Default values are literals in the positive theorems. The c82_not_ theorems are the cases in which the code does not do what Python does."
  },
  {
   "property": "C83",
   "status": "proved",
   "theorems": [
    "Rmw.c83_rmw",
    "Rmw.c83_safe",
    "Rmw.c83_not_apart",
    "Rmw.c83_not_when",
    "Rmw.c83_not_alias"
   ],
   "note": "c83_rmw holds under the three conditions of the statement; the c83_not_ theorems show that each of them is needed."
  },
  {
   "property": "C84",
   "status": "proved",
   "theorems": [
    "FOp.c84_fifo",
    "FOp.c84_out",
    "FOp.c84_map",
    "FOp.c84_go",
    "FOp.c84_not_async",
    "ROp.c84_ram",
    "ROp.c84_ram2",
    "ROp.c84_not_ram2"
   ],
   "note": "FIFO operators with latency 1 and ReadRAM with any latency, for all stalls; latency 2 with when under stalls and FIFOs without sync are shown to fail."
  },
  {
   "property": "C85",
   "status": "proved",
   "theorems": [
    "SBits.c85_pointer",
    "SBits.c85_slice",
    "SBits.c85_cat",
    "SBits.c85_repeat",
    "SBits.c85_bitwise",
    "SBits.c85_unot",
    "SBits.c85_logic",
    "SBits.c85_chunk",
    "SBits.c85_split",
    "SBits.c85_join",
    "SBits.c85_reduce",
    "SBits.c85_eval",
    "SBits.c85_not_parity",
    "SBits.c85_not_mixed",
    "SBits.c85_not_split"
   ],
   "note": "all widths, signs and values; three disagreements are proved as negative theorems"
  },
  {
   "property": "C86",
   "status": "proved",
   "theorems": [
    "Shr.c86_write",
    "Shr.c86_keep",
    "Shr.c86_next",
    "Shr.c86_atomic",
    "Shr.c86_section",
    "Shr.c86_count",
    "Shr.c86_not_unlocked"
   ],
   "note": "all programs and executions; uses the mutual exclusion of C21"
  },
  {
   "property": "C87",
   "status": "proved",
   "theorems": [
    "Rom.c87_read",
    "Rom.c87_exact",
    "Rom.c87_async",
    "Rom.c87_not_async",
    "Rom.c87_lut",
    "Rom.c87_lut_pow",
    "Rom.c87_not_lut",
    "Rom.c87_pred",
    "Rom.c87_reg"
   ],
   "note": "All parts. The statement includes the two disagreements (c87_not_lut, c87_not_async)."
  },
  {
   "property": "C88",
   "status": "proved",
   "theorems": [
    "Nam.c88_exec",
    "Nam.c88_thread",
    "Nam.c88_not_outer",
    "Nam.c88_not_none",
    "Nam.c88_not_recursive"
   ],
   "note": "Python's meaning of the statements is the relation Nam.Py; the FSM side is C19. Local names must not be names of objects outside (c88_not_outer shows why)."
  },
  {
   "property": "C89",
   "status": "proved",
   "theorems": [
    "TEx.c89_value",
    "TEx.c89_exact",
    "TEx.c89_test",
    "TEx.c89_not_floordiv",
    "TEx.c89_not_mod",
    "TEx.c89_not_truediv",
    "TEx.c89_not_or",
    "TEx.c89_not_chain",
    "TEx.c89_not_unsigned",
    "TEx.c89_not_wide"
   ],
   "note": "Values of expressions in Python (TE.py) against the Verilog made of them; c89_not_* show that each condition is needed."
  },
  {
   "property": "C90",
   "status": "proved",
   "theorems": [
    "MemImg.c90_set",
    "MemImg.c90_image",
    "MemImg.c90_load",
    "MemImg.c90_read",
    "MemImg.c90_default",
    "MemImg.c90_aligned",
    "MemImg.c90_size",
    "MemImg.c90_not_pad",
    "MemImg.c90_not_offset",
    "MemImg.c90_not_width",
    "MemImg.c90_not_length",
    "MemImg.c90_not_big",
    "MemImg.c90_not_fill",
    "MemImg.c90_not_words"
   ],
   "note": "The element widths must divide the word width or be multiples of it; the statement lists what happens otherwise."
  },
  {
   "property": "C91",
   "status": "proved",
   "theorems": [
    "DfSch.c91_total",
    "DfSch.c91_depth",
    "DfSch.c91_values",
    "DfSch.c91_together",
    "DfSch.c91_latency",
    "DfSch.c91_not_stage",
    "DfSch.c91_not_const"
   ],
   "note": "graphs of any latency for the values under the proviso of C58; operators of latency 1 without proviso; prev is in C58 only"
  },
  {
   "property": "C92",
   "status": "proved",
   "theorems": [
    "AxiMulti.c92_write",
    "AxiMulti.c92_read",
    "AxiMulti.c92_coherent",
    "AxiMulti.c92_not_two"
   ],
   "note": "identifiers and the width of the sleep counters are not modelled, as in C56"
  },
  {
   "property": "C93",
   "status": "proved",
   "theorems": [
    "DfArith.c93_latency",
    "DfArith.c93_divide_signed",
    "DfArith.c93_divide_nonneg",
    "DfArith.c93_not_min",
    "DfArith.c93_not_unsigned",
    "DfArith.c93_not_mixed",
    "DfArith.c93_mod_signed",
    "DfArith.c93_mod_nonneg",
    "DfArith.c93_mod_trunc",
    "DfArith.c93_not_mod_sign",
    "DfArith.c93_not_mod_point"
   ],
   "note": "Divide and Mod of the dataflow library; negative theorems for the most negative dividend, unsigned dividends with the top bit, operands of different signedness, the sign and the point of the remainder"
  },
  {
   "property": "C94",
   "status": "proved",
   "theorems": [
    "DfAcc.c94_reduce",
    "DfAcc.c94_blocks",
    "DfAcc.c94_size_zero",
    "DfAcc.c94_counter",
    "DfAcc.c94_counter_size",
    "DfAcc.c94_pulse",
    "DfAcc.c94_valid",
    "DfAcc.c94_not_reset_size",
    "DfAcc.c94_not_reset_disabled",
    "DfAcc.c94_not_valid_once",
    "DfAcc.c94_not_mul",
    "DfAcc.c94_not_unsigned"
   ],
   "note": "record by record; the five disagreements are proved as negations"
  },
  {
   "property": "C95",
   "status": "proved",
   "theorems": [
    "Pat.c95_beats",
    "Pat.c95_all",
    "Pat.c95_not_when",
    "Pat.c95_skips",
    "Pat.c95_different_sizes",
    "Pat.c95_restart",
    "Pat.c95_settable"
   ],
   "note": "proved without a when condition for patterns of equal sizes; negated with a when condition, for different sizes and for a second start"
  },
  {
   "property": "C96",
   "status": "proved",
   "theorems": [
    "Thr.c96_final",
    "Thr.c96_terminates",
    "Thr.c96_block",
    "Thr.c96_old_values",
    "Thr.c96_not_if",
    "Thr.c96_not_while",
    "Thr.c96_not_call",
    "Thr.c96_unclosed",
    "Thr.c96_not_break"
   ],
   "note": "every block is one simultaneous assignment of its text; negative theorems for if, while, call, break in a block and for a block that is not closed"
  },
  {
   "property": "C97",
   "status": "proved",
   "theorems": [
    "RSt.c97_same",
    "RSt.c97_ends",
    "RSt.c97_det",
    "RSt.c97_copies",
    "RSt.c97_top",
    "RSt.c97_bound",
    "RSt.c97_bound_ends",
    "RSt.c97_step",
    "RSt.c97_step_ends",
    "RSt.c97_exit",
    "RSt.c97_assign",
    "RSt.c97_same_var",
    "RSt.c97_other_dest"
   ],
   "note": "integer values; C44 covers widths"
  },
  {
   "property": "C98",
   "status": "proved",
   "theorems": [
    "AxiSerial.c98_memory",
    "AxiSerial.c98_settled",
    "AxiSerial.c98_kept",
    "AxiSerial.c98_write",
    "AxiSerial.c98_read",
    "AxiSerial.c98_starved",
    "AxiSerial.c98_not_refused",
    "AxiSerial.c98_not_refused_data"
   ],
   "note": "proved for masters that make no write request while they refuse a response; negated otherwise"
  },
  {
   "property": "C99",
   "status": "proved",
   "theorems": [
    "CCnt.c99_tuple",
    "CCnt.c99_start",
    "CCnt.c99_reset",
    "CCnt.c99_next",
    "CCnt.c99_hold",
    "CCnt.c99_iter",
    "CCnt.c99_lists",
    "CCnt.c99_not_initvals",
    "CCnt.c99_not_valid",
    "CCnt.c99_args",
    "CCnt.c99_point",
    "CCnt.c99_not_point"
   ],
   "note": "all variables, functions and cycles; the ways in which it ignores initial values, points, arguments and the valid signal are proved as such"
  }
 ]
}