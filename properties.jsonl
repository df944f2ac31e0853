{"id": "C01", "title": "Exception table survives the code object", "statement": "The exception_table of a ConcreteBytecode written by to_code into co_exceptiontable is read back by ConcreteBytecode.from_code (and by CPython's own reader) as exactly the same list of (start_offset, stop_offset, target, stack_depth, push_lasti), whenever every start/target/depth is non-negative and stop_offset >= start_offset - 1.", "quantifier": "every list of exception table entries, of any length and with offsets and depths of any magnitude", "why_tests_cant": "The varint format changes length at powers of 64; no finite set of offsets covers all of them or all table lengths.", "anchors": ["src/bytecode/concrete.py:ConcreteBytecode._encode_varint", "src/bytecode/concrete.py:ConcreteBytecode._parse_varint", "src/bytecode/concrete.py:ConcreteBytecode._assemble_exception_table", "src/bytecode/concrete.py:ConcreteBytecode._parse_exception_table"]}
{"id": "C02", "title": "Exception table bytes are binary-searchable by CPython", "statement": "In the bytes produced for co_exceptiontable every byte is in 0..255, the first byte of every entry and no other byte has bit 0x80 set (the marker CPython's scanner resynchronises on), and bit 0x40 is set exactly on the non-final bytes of each varint.", "quantifier": "every list of well-formed exception table entries", "why_tests_cant": "Must hold for every byte position of every possible table; the interpreter jumps to arbitrary byte positions.", "anchors": ["src/bytecode/concrete.py:ConcreteBytecode._encode_varint", "src/bytecode/concrete.py:ConcreteBytecode._assemble_exception_table"]}
{"id": "C03", "title": "co_positions of the code object are the instruction locations (3.11+)", "statement": "Decoding the location table emitted by to_code with CPython's documented format yields, for every code unit (including EXTENDED_ARG prefixes), the location of the instruction it belongs to: line, end line, column and end column (a location without columns decodes to end line = line and no columns; an instruction without location takes that of its predecessor).", "quantifier": "every first_lineno and every non-empty or empty sequence of instructions with any sizes and any constructible locations", "why_tests_cant": "Line deltas, columns, run lengths > 8 code units and grouping of equal locations interact; the space of sequences is infinite.", "anchors": ["src/bytecode/concrete.py:ConcreteBytecode._assemble_locations", "src/bytecode/concrete.py:ConcreteBytecode._push_locations", "src/bytecode/concrete.py:ConcreteBytecode._pack_location", "src/bytecode/concrete.py:ConcreteBytecode._encode_location_varint", "src/bytecode/concrete.py:ConcreteBytecode._encode_location_svarint"]}
{"id": "C04", "title": "Location packing fails only for multi-line locations without columns", "statement": "For every InstrLocation that can be constructed, packing it (3.11+) raises iff it has no column offset and an end_lineno different from lineno; in every other case it produces bytes in 0..255, the first with bit 0x80 set, and a later byte with that bit set exactly when the location is within one of the two lines after the reference line with columns up to 255, one of which is at least 128 (CPython reads such a byte as the start of an entry: a defect).", "quantifier": "every constructible location, every reference line and every instruction size", "why_tests_cant": "Needs all combinations of four optional unbounded integers.", "anchors": ["src/bytecode/concrete.py:ConcreteBytecode._pack_location", "src/bytecode/instr.py:InstrLocation.__init__"]}
{"id": "C05", "title": "Line numbers survive co_lnotab (3.8/3.9)", "statement": "Decoding the emitted co_lnotab with CPython's rule gives, at the offset of every instruction, the line number of that instruction (explicit or inherited), for forward and backward line deltas of any size.", "quantifier": "every sequence of instructions with any sizes and line numbers", "why_tests_cant": "Deltas beyond one byte are split over several entries; all splits must add up for all magnitudes.", "anchors": ["src/bytecode/concrete.py:ConcreteBytecode._assemble_lnotab", "src/bytecode/concrete.py:ConcreteBytecode._assemble_code", "src/bytecode/concrete.py:ConcreteBytecode._normalize_lineno"]}
{"id": "C06", "title": "Line numbers survive co_linetable (3.10)", "statement": "Decoding the emitted co_linetable with CPython 3.10's rule gives for every byte of every instruction the line number of that instruction, including 'no line' for instructions whose line is None, exactly when: every run of no-line instructions takes at most 254 bytes; and the instruction after such a run is on another line than the one in force when the run began, which must be the line of the last instruction before the run (runs of exactly 254 bytes may also be followed by the line of before). The other codes get wrong lines (defects).", "quantifier": "every sequence of instructions with any sizes and optional line numbers", "why_tests_cant": "Same as C05, plus interaction of no-line ranges with line changes.", "anchors": ["src/bytecode/concrete.py:ConcreteBytecode._assemble_linestable", "src/bytecode/concrete.py:ConcreteBytecode._pack_linetable"]}
{"id": "C07", "title": "size is the number of bytes assemble() produces", "statement": "assemble() gives a run of EXTENDED_ARG units followed by the opcode that CPython decodes to the argument, with no more EXTENDED_ARG than needed unless extended_args asked for them; len(instr.assemble()) == instr.size exactly when extended_args was not given, or is 0 for an instruction without argument, or is enough for the argument (the other cases, a NOP with prefixes for one, are a defect), so always for the instructions made by the conversions.", "quantifier": "every constructible ConcreteInstr, for every argument 0..2147483647 and every extended_args", "why_tests_cant": "Offsets of every later instruction and every jump depend on it; the argument range has 2^31 values.", "anchors": ["src/bytecode/concrete.py:ConcreteInstr._set", "src/bytecode/concrete.py:ConcreteInstr.assemble", "src/bytecode/concrete.py:ConcreteInstr.size"]}
{"id": "C08", "title": "Disassembling assembled code gives back the instructions", "statement": "Reading the byte string produced by assembling a list of concrete instructions, with EXTENDED_ARG folding, yields the same list of (name, argument) and the same sizes; with extended_arg=True it yields the unfolded prefix units.", "quantifier": "every list of concrete instructions", "why_tests_cant": "Round trip over all instruction sequences and argument magnitudes.", "anchors": ["src/bytecode/concrete.py:ConcreteBytecode.from_code", "src/bytecode/concrete.py:ConcreteBytecode._remove_extended_args", "src/bytecode/concrete.py:ConcreteInstr.assemble", "src/bytecode/concrete.py:ConcreteInstr.disassemble"]}
{"id": "C09", "title": "Concrete instructions stay valid under any sequence of mutations", "statement": "Starting from any constructible ConcreteInstr, after any sequence of set / name= / opcode= / arg= / lineno= / location= operations, successful or raising, name and opcode agree, the argument is absent or in 0..2147483647 according to the opcode, and size is the one determined by the argument; an operation that raises leaves the instruction unchanged.", "quantifier": "every history of mutation operations", "why_tests_cant": "Histories are unbounded and include failing operations.", "anchors": ["src/bytecode/instr.py:BaseInstr._set", "src/bytecode/instr.py:BaseInstr.set", "src/bytecode/concrete.py:ConcreteInstr._set", "src/bytecode/concrete.py:ConcreteInstr._check_arg"]}
{"id": "C10", "title": "Abstract instructions only ever hold an argument of the documented kind", "statement": "After construction and after any sequence of set / name= / opcode= / arg= operations (including raising ones), the argument of an Instr is of the kind the documentation requires for its opcode (Label/BasicBlock for jumps, CellVar/FreeVar for free ops, str for names, tuples for flagged ops, Compare, intrinsics, int range, unset), and an operation that raises leaves the instruction unchanged.", "quantifier": "every operation history and every argument value", "why_tests_cant": "Unbounded histories and argument values.", "anchors": ["src/bytecode/instr.py:Instr._check_arg", "src/bytecode/instr.py:BaseInstr._set"]}
{"id": "C11", "title": "InstrLocation accepts exactly coherent locations", "statement": "InstrLocation(l, el, c, ec) succeeds iff: given lines/columns are within their minimum; an end line implies a line not after it; columns come in pairs and only with both lines; on a single line the end column is not before the column.", "quantifier": "every quadruple of optional integers, every supported Python version", "why_tests_cant": "Four unbounded integers.", "anchors": ["src/bytecode/instr.py:InstrLocation.__init__", "src/bytecode/instr.py:_check_location"]}
{"id": "C12", "title": "lineno= never destroys detailed location information", "statement": "Assigning lineno either raises and leaves the instruction unchanged (exactly when the location has an end line or columns) or sets a location with exactly that line; after any sequence of assignments the instruction's location is coherent.", "quantifier": "every instruction and every assignment history", "why_tests_cant": "Unbounded histories.", "anchors": ["src/bytecode/instr.py:BaseInstr.lineno", "src/bytecode/instr.py:BaseInstr.location"]}
{"id": "C13", "title": "legalize assigns a line to every instruction and removes every SetLineno", "statement": "After Bytecode.legalize / ConcreteBytecode.legalize / ControlFlowGraph.legalize (when it does not raise) no SetLineno remains, the other elements are the same in the same order up to their line, no instruction line is unset, each instruction has the line of the last SetLineno before it (in its block, for a ControlFlowGraph) if any, else its own, else the last line seen before it (or first_lineno); it raises RuntimeError exactly when an instruction with a detailed location follows a SetLineno; applying legalize again changes nothing.", "quantifier": "every list of instructions, labels, SetLineno and try markers", "why_tests_cant": "Arbitrary interleavings of SetLineno and instructions.", "anchors": ["src/bytecode/bytecode.py:_BaseBytecodeList.legalize", "src/bytecode/cfg.py:BasicBlock.legalize", "src/bytecode/cfg.py:ControlFlowGraph.legalize"]}
{"id": "C14", "title": "Every jump lands on its label", "statement": "If Bytecode.to_concrete_bytecode succeeds then for every jump instruction to a Label, get_jump_target evaluated at that instruction's offset in the result equals the offset of the first concrete instruction following the label (EXTENDED_ARG prefixes and CACHE entries included).", "quantifier": "every Bytecode without manual CACHE instructions (see C19), every placement of labels and jumps, every Python version's jump encodings", "why_tests_cant": "Jump sizes and offsets are mutually dependent; requires reasoning about the fixpoint for every layout.", "anchors": ["src/bytecode/concrete.py:_ConvertBytecodeToConcrete.compute_jumps", "src/bytecode/concrete.py:_ConvertBytecodeToConcrete.concrete_instructions", "src/bytecode/concrete.py:ConcreteInstr.get_jump_target"]}
{"id": "C15", "title": "Jump resolution converges and uses the fewest EXTENDED_ARG", "statement": "Jump resolution never oscillates: instruction sizes never shrink from one pass to the next, it reaches a stable layout within 3*(number of jumps)+1 passes unless some jump argument leaves 0..2147483647, and the layout reached is the smallest one: any other consistent layout has every instruction at least as large.", "quantifier": "every Bytecode without manual CACHE instructions (see C19), label placement and pass limit", "why_tests_cant": "Convergence is a claim about all inputs, and minimality about all alternative layouts.", "anchors": ["src/bytecode/concrete.py:_ConvertBytecodeToConcrete.compute_jumps", "src/bytecode/concrete.py:_ConvertBytecodeToConcrete.to_concrete_bytecode"]}
{"id": "C16", "title": "Try regions keep protecting the same instructions", "statement": "If to_concrete_bytecode succeeds, each TryBegin/TryEnd pair gives one exception table entry that covers exactly the offsets of the real instructions between them, whose target is the offset of the instruction following the target label, with the stack depth and lasti flag of the TryBegin; except that when the first region ends before the first instruction, its handler protects the whole code (a defect).", "quantifier": "every Bytecode without manual CACHE, with any number of (possibly empty) try regions", "why_tests_cant": "Offsets depend on jump resolution; regions may start or end with extended instructions or be empty.", "anchors": ["src/bytecode/concrete.py:_ConvertBytecodeToConcrete.concrete_instructions", "src/bytecode/concrete.py:_ConvertBytecodeToConcrete.compute_jumps"]}
{"id": "C17", "title": "Name, variable and constant tables resolve back to the arguments", "statement": "In the result of to_concrete_bytecode each name/local/constant index refers to the name, variable or constant (same const key) of the abstract instruction; names, varnames and constant keys have no duplicates introduced; argument names come first in varnames in order, and the docstring if set is constant 0.", "quantifier": "every Bytecode", "why_tests_cant": "Tables of any size in any order of first use.", "anchors": ["src/bytecode/concrete.py:_ConvertBytecodeToConcrete.add", "src/bytecode/concrete.py:_ConvertBytecodeToConcrete.add_const", "src/bytecode/concrete.py:_ConvertBytecodeToConcrete.to_concrete_bytecode"]}
{"id": "C18", "title": "Cell and free variables address the right slot", "statement": "In the result of to_concrete_bytecode the index of an instruction on CellVar(n) or FreeVar(n) designates, in CPython's slot layout (3.11+: varnames, then cellvars not in varnames, then freevars; before: cellvars then freevars), the slot named n; to_bytecode maps it back to the same variable, except an instruction on local variables of 3.13 with FreeVar(n): this one is read as the j-th free variable that is not also a local one, n being the j-th free variable (a defect: another variable, when a free variable up to n is also a local one).", "quantifier": "every combination of varnames, cellvars and freevars and every instruction using them, in a Bytecode without manual CACHE and without the two-variable instructions of C21's exception", "why_tests_cant": "All overlaps between locals and cells.", "anchors": ["src/bytecode/concrete.py:_ConvertBytecodeToConcrete.concrete_instructions", "src/bytecode/concrete.py:ConcreteBytecode.to_bytecode"]}
{"id": "C19", "title": "Inline caches are emitted exactly as CPython requires", "statement": "In the result of to_concrete_bytecode on 3.11+, every instruction not directly followed by a manual CACHE is followed by exactly the CACHE entries its opcode requires, and one directly followed by a manual CACHE by that CACHE only; CACHE occurs nowhere else. So the layout is what CPython requires iff every manual CACHE follows an instruction requiring exactly one entry (otherwise entries are missing: a defect). A manual CACHE anywhere else, including a second one in a row, raises RuntimeError if the code without manual CACHEs converts; to_bytecode(prune_caches=True) leaves no CACHE.", "quantifier": "every Bytecode, including manual CACHE instructions in any position", "why_tests_cant": "All placements of CACHE, labels and try markers.", "anchors": ["src/bytecode/concrete.py:_ConvertBytecodeToConcrete.concrete_instructions", "src/bytecode/concrete.py:ConcreteBytecode.to_bytecode"]}
{"id": "C20", "title": "Operand encodings invert", "statement": "Decoding by to_bytecode of the integer argument produced by to_concrete_bytecode gives back the operand, for COMPARE_OP on every version (including 3.13 casts), LOAD_GLOBAL/LOAD_ATTR (flag, name), LOAD_SUPER_ATTR (flag, flag, name) and intrinsics.", "quantifier": "every operand and every name index", "why_tests_cant": "Name indexes are unbounded.", "anchors": ["src/bytecode/concrete.py:_ConvertBytecodeToConcrete.concrete_instructions", "src/bytecode/concrete.py:ConcreteBytecode.to_bytecode", "src/bytecode/instr.py:Compare"]}
{"id": "C21", "title": "When two-variable opcodes address both variables (3.13)", "statement": "After to_concrete_bytecode, LOAD_FAST_LOAD_FAST / STORE_FAST_LOAD_FAST / STORE_FAST_STORE_FAST on (a, b) is either one instruction whose high bits and low four bits index a and b in varnames, or the two corresponding single instructions on a and b, except exactly when b has index 16 in varnames and a at most 16: then it addresses other variables (a defect).", "quantifier": "every pair of variables and every size of the variable table", "why_tests_cant": "The table size that breaks the 4 bit field is a single boundary value.", "anchors": ["src/bytecode/concrete.py:_ConvertBytecodeToConcrete.concrete_instructions", "src/bytecode/instr.py:DUAL_ARG_OPCODES_SINGLE_OPS"]}
{"id": "C22", "title": "to_bytecode resolves every operand and jump of the concrete code", "statement": "If ConcreteBytecode.to_bytecode succeeds, its instructions are the non-CACHE concrete instructions in order, each with the operand its integer argument denotes in the tables, and each jump's label is placed immediately before the instruction starting at the jump's target offset; except that on 3.13 the instructions on local variables read the j-th free variable as the j-th one that is not also a local variable (a defect). So all operands are kept iff, on 3.13, no such instruction addresses the slot of a free variable that is also a local one, or a later slot.", "quantifier": "every ConcreteBytecode (with or without EXTENDED_ARG units and SetLineno) that denotes a program: no jump into a CACHE entry", "why_tests_cant": "All layouts and tables.", "anchors": ["src/bytecode/concrete.py:ConcreteBytecode.to_bytecode", "src/bytecode/concrete.py:ConcreteBytecode._remove_extended_args"]}
{"id": "C23", "title": "Bytecode -> ConcreteBytecode -> Bytecode preserves the program", "statement": "Converting a Bytecode to concrete and back yields a program with the same instructions in the same order, the same operands, the same jump target instructions and the same locations (inherited ones made explicit); only FreeVar operands of 3.13's instructions on local variables may change, as said in C18. Each instruction keeps its handler, except that a region starting with an instruction that needs EXTENDED_ARG is lost with to_bytecode (a defect): all handlers are kept iff every non-empty region starts with an instruction without EXTENDED_ARG.", "quantifier": "every Bytecode without manual CACHE and without the two-variable instructions of C21's exception, whose TryBegin and TryEnd delimit regions (not nested, the first one not empty at the very start), for which both conversions succeed", "why_tests_cant": "Whole-pipeline property over all programs.", "anchors": ["src/bytecode/bytecode.py:Bytecode.to_concrete_bytecode", "src/bytecode/concrete.py:ConcreteBytecode.to_bytecode"]}
{"id": "C24", "title": "Block indexes stay correct under any sequence of CFG edits", "statement": "After any sequence of add_block, split_block and del cfg[i], get_block_index(cfg[i]) == i for every i, and get_block_index raises ValueError exactly for blocks not in the CFG.", "quantifier": "every history of CFG editing operations with deletions by block or by non-negative index (del cfg[-1] breaks it, C24_statement_false)", "why_tests_cant": "Unbounded histories.", "anchors": ["src/bytecode/cfg.py:ControlFlowGraph._add_block", "src/bytecode/cfg.py:ControlFlowGraph.split_block", "src/bytecode/cfg.py:ControlFlowGraph.__delitem__", "src/bytecode/cfg.py:ControlFlowGraph.get_block_index"]}
{"id": "C25", "title": "split_block preserves the code and the control flow", "statement": "split_block(block, i) leaves the concatenation of all blocks' instructions unchanged, cuts the block exactly at i, links the first half to the second and keeps every jump and handler edge; the new block has no next block, so that what the block fell into is no longer a successor of it (a defect). Index 0 and, before another block, the length give an existing block and change nothing; other indexes outside the block, and blocks of another graph, raise ValueError and change nothing; when the elements from i on may not form a block ValueError is raised and the block has lost them (a defect).", "quantifier": "every CFG built through the API, every block and index", "why_tests_cant": "All CFG shapes and split points.", "anchors": ["src/bytecode/cfg.py:ControlFlowGraph.split_block"]}
{"id": "C26", "title": "Bytecode -> CFG -> Bytecode preserves instructions and jump targets", "statement": "ControlFlowGraph.from_bytecode followed by to_bytecode gives a Bytecode with the same instructions and SetLineno in the same order, the same operands and locations, and every jump targets the same instruction as before.", "quantifier": "every Bytecode whose jump arguments are Labels for which the conversion succeeds", "why_tests_cant": "All label/jump/try layouts.", "anchors": ["src/bytecode/cfg.py:ControlFlowGraph.from_bytecode", "src/bytecode/cfg.py:ControlFlowGraph.to_bytecode"]}
{"id": "C27", "title": "CFG blocks are basic blocks with the right fall-through edges", "statement": "In the result of from_bytecode only the last real instruction of a block can be a jump or final; a block's next_block is the following block iff its last real instruction is not final and there is a following block; each jump argument is the block starting at its label.", "quantifier": "every Bytecode", "why_tests_cant": "All programs.", "anchors": ["src/bytecode/cfg.py:ControlFlowGraph.from_bytecode"]}
{"id": "C28", "title": "What get_dead_blocks returns", "statement": "get_dead_blocks returns, in order, exactly the blocks that cannot be reached from the first block through jumps and exception handlers; so every block that is unreachable is returned, and those returned are exactly these when each fall-through doubles a jump (fall-through is not followed: a defect).", "quantifier": "every CFG", "why_tests_cant": "Reachability over arbitrary graphs.", "anchors": ["src/bytecode/cfg.py:ControlFlowGraph.get_dead_blocks"]}
{"id": "C29", "title": "The computed stack size is never too small", "statement": "If compute_stacksize returns n, then no execution path through the CFG (following jumps taken or not, fall-through, and exception handlers) ever has more than n values on the stack, provided the stack depth along paths is bounded at all.", "quantifier": "every CFG, every execution path of any length", "why_tests_cant": "Paths are unbounded and exponentially many.", "anchors": ["src/bytecode/cfg.py:ControlFlowGraph.compute_stacksize", "src/bytecode/cfg.py:_StackSizeComputer.run"]}
{"id": "C30", "title": "The computed stack size is attained", "statement": "If compute_stacksize returns n > 0 for a CFG without exception handlers, then some execution path really reaches depth n (n is not an overestimate).", "quantifier": "every CFG", "why_tests_cant": "Existential over unbounded paths for every CFG.", "anchors": ["src/bytecode/cfg.py:ControlFlowGraph.compute_stacksize", "src/bytecode/cfg.py:_StackSizeComputer.run"]}
{"id": "C31", "title": "Stack underflow is detected", "statement": "If compute_stacksize succeeds with check_pre_and_post, no execution path pops from an empty stack; if it raises RuntimeError some execution path does.", "quantifier": "every CFG, every execution path", "why_tests_cant": "Paths are unbounded.", "anchors": ["src/bytecode/cfg.py:_update_size", "src/bytecode/cfg.py:_StackSizeComputer.run"]}
{"id": "C32", "title": "Stack size computation terminates on every CFG", "statement": "compute_stacksize terminates on every CFG, whatever its loops, handlers and stack effects, including loops that grow the stack.", "quantifier": "every CFG", "why_tests_cant": "Termination over all cyclic graphs.", "anchors": ["src/bytecode/cfg.py:ControlFlowGraph.compute_stacksize", "src/bytecode/cfg.py:_StackSizeComputer.run"]}
{"id": "C33", "title": "Handler stack depths are safe", "statement": "After compute_stacksize, for every TryBegin reached, stack_depth is at most the number of values on the stack at every point between it and its TryEnd on every execution path.", "quantifier": "every CFG with try regions, every execution path", "why_tests_cant": "Paths through try regions are unbounded.", "anchors": ["src/bytecode/cfg.py:_StackSizeComputer._compute_exception_handler_stack_usage", "src/bytecode/cfg.py:ControlFlowGraph.compute_stacksize"]}
{"id": "C34", "title": "Flag inference sets at most one code kind and is idempotent", "statement": "When infer_flags returns, at most one of GENERATOR, COROUTINE, ASYNC_GENERATOR, ITERABLE_COROUTINE is set; applying update_flags again with the same arguments gives the same flags; NEWLOCALS, VARARGS, VARKEYWORDS, NESTED and FUTURE_GENERATOR_STOP are kept.", "quantifier": "every instruction list, initial flags and is_async value", "why_tests_cant": "All flag combinations times all instruction lists.", "anchors": ["src/bytecode/flags.py:infer_flags", "src/bytecode/bytecode.py:BaseBytecode.update_flags"]}
{"id": "C35", "title": "Flag inference is conservative about async code", "statement": "With is_async None or True, code flagged COROUTINE or ASYNC_GENERATOR stays one of those two; with is_async False the result has no async flag, and it raises iff an async-only instruction is present; with is_async None non-async code becomes async only if such an instruction is present.", "quantifier": "every instruction list, initial flags and is_async value", "why_tests_cant": "All flag combinations times all instruction lists.", "anchors": ["src/bytecode/flags.py:infer_flags"]}
{"id": "C36", "title": "OPTIMIZED and NOFREE are exactly right", "statement": "infer_flags sets OPTIMIZED iff no *_NAME access instruction is present, and NOFREE iff no instruction uses a cell or free variable and, for concrete bytecode, the lists of cell and free variables are not both non-empty (the docs want neither: a defect).", "quantifier": "every instruction list", "why_tests_cant": "Any position in lists of any length.", "anchors": ["src/bytecode/flags.py:infer_flags"]}
{"id": "C37", "title": "Bytecode equality ignores label identity and nothing else in the code", "statement": "Two Bytecode lists compare equal iff they have the same elements position by position where labels match by position, jumps match by target position and try markers by pairing, their stack depths and the attributes of the Bytecode excepted (not compared: a defect); comparing raises exactly when one has nested try regions, a TryEnd before its TryBegin or a missing label; equality is an equivalence, and renaming labels injectively never changes it.", "quantifier": "every pair of Bytecode lists and every injective renaming", "why_tests_cant": "All programs and renamings.", "anchors": ["src/bytecode/bytecode.py:_InstrList._flat", "src/bytecode/bytecode.py:_InstrList.__eq__"]}
{"id": "C38", "title": "copy and slicing keep the program", "statement": "b.copy() and b[:] have the same instructions and the same attributes as b, for Bytecode and ConcreteBytecode, the exception table of a ConcreteBytecode excepted, which is empty in the copy (a defect); an edit of the copy that does not go through a list of names or constants, which are shared, leaves the original as it was; instr.copy() equals instr and, extended_args being forgotten (a defect), has the same size when it was not given.", "quantifier": "every bytecode object and instruction", "why_tests_cant": "All attribute values.", "anchors": ["src/bytecode/bytecode.py:_BaseBytecodeList.copy", "src/bytecode/bytecode.py:_BaseBytecodeList.__getitem__", "src/bytecode/concrete.py:ConcreteBytecode._copy_attr_from", "src/bytecode/instr.py:BaseInstr.copy"]}
{"id": "C39", "title": "What ConcreteBytecode equality compares", "statement": "Two ConcreteBytecode objects compare equal exactly when they have the same tables (constants by their keys) and attributes and both a stack size, the same; instructions and exception tables are not compared (a defect).", "quantifier": "every pair of ConcreteBytecode objects", "why_tests_cant": "All pairs.", "anchors": ["src/bytecode/concrete.py:ConcreteBytecode.__eq__", "src/bytecode/bytecode.py:BaseBytecode.__eq__"]}
{"id": "C40", "title": "Iteration rejects nested or malformed content", "statement": "Iterating a Bytecode yields all its elements iff every element is a Label, SetLineno, Instr, TryBegin or TryEnd and no TryBegin occurs before the previous one is closed; otherwise it raises at the first offending element after yielding the ones before.", "quantifier": "every list", "why_tests_cant": "All lists.", "anchors": ["src/bytecode/bytecode.py:Bytecode.__iter__", "src/bytecode/bytecode.py:Bytecode._check_instr", "src/bytecode/cfg.py:BasicBlock.__iter__"]}
{"id": "C41", "title": "to_code / from_code round trip", "statement": "For a ConcreteBytecode written with an explicit stack size and without depth recomputation, to_code raises exactly when a location covers several lines without columns (ValueError) or an exception table entry is invalid (AssertionError); otherwise from_code(to_code(c)) has the same instructions (names, arguments, sizes), exception table, tables and attributes as c, and each instruction the location it had (its own, else that of its predecessor) as code objects keep them: no end line without columns but the line itself. Only: the docstring is that of the constants, the cells that are local variables come first in the order of these, SetLineno elements are gone, and CACHE arguments are 0.", "quantifier": "every ConcreteBytecode on 3.11+ with constructible instructions of honest sizes, no explicit EXTENDED_ARG, the CACHE entries its opcodes need and no column-less instruction on line 0 (without these it fails: C41_statement_false)", "why_tests_cant": "Whole-object round trip over all code.", "anchors": ["src/bytecode/concrete.py:ConcreteBytecode.to_code", "src/bytecode/concrete.py:ConcreteBytecode.from_code"]}
{"id": "C42", "title": "The reported current line is right (3.11+)", "statement": "Scanning the emitted location table the way co_lines() and tracebacks do (start of an entry = byte with bit 0x80) gives, for the offset of every instruction, the line of that instruction's location, unless the location of some instruction is within one of the two lines after the current one with columns up to 255, one of which is at least 128: exactly then the scanner takes a column for the start of an entry and reports more code units than there are, or reads past the table (a defect).", "quantifier": "every sequence of instructions with any sizes and any constructible locations", "why_tests_cant": "All lines, columns and sizes.", "anchors": ["src/bytecode/concrete.py:ConcreteBytecode._assemble_locations", "src/bytecode/concrete.py:ConcreteBytecode._pack_location"]}
{"id": "C43", "title": "Pre and post stack effects add up", "statement": "For every opcode of CPython 3.11 and 3.12 and every argument, pre_and_post_stack_effect(jump) gives two numbers (pre, post) whose sum is stack_effect(jump). On 3.11 post is negative exactly for LIST_APPEND 0, SET_ADD 0, MAP_ADD 0 and MAP_ADD 1 (which valid code does not contain), and pre is positive only when post is 0.", "quantifier": "every opcode, every argument, jump in {None, True, False}", "why_tests_cant": "All arguments; the tables in instr.py are maintained by hand.", "anchors": ["src/bytecode/instr.py:Instr.pre_and_post_stack_effect", "src/bytecode/instr.py:STATIC_STACK_EFFECTS", "src/bytecode/instr.py:DYNAMIC_STACK_EFFECTS"]}
{"id": "C44", "title": "Code strings survive from_code / assemble", "statement": "Reading the code string of a code object with from_code and assembling it again gives the same bytes (inline caches and ignored argument bytes excepted), including useless EXTENDED_ARG prefixes, exactly when no NOP carries an EXTENDED_ARG; otherwise the code is shorter by exactly these prefixes.", "quantifier": "every code string from_code accepts", "why_tests_cant": "All byte strings.", "anchors": ["src/bytecode/concrete.py:ConcreteBytecode.from_code", "src/bytecode/concrete.py:ConcreteBytecode._remove_extended_args", "src/bytecode/concrete.py:ConcreteInstr.assemble"]}
{"id": "C45", "title": "Bytecode -> ConcreteBytecode preserves the program", "statement": "If to_concrete_bytecode succeeds, the resulting integers read in the resulting tables denote the same operations in the same order, with the same operands, the same jump target operations, the same locations (an instruction without location has that of the preceding SetLineno or instruction) and the same protecting handler; the two-variable opcodes of 3.13 count as two operations.", "quantifier": "every Bytecode without manual CACHE instructions (see C19), with try markers delimiting regions (see C16) and away from the index-16 defect (see C21)", "why_tests_cant": "All programs, variable tables and label placements.", "anchors": ["src/bytecode/concrete.py:_ConvertBytecodeToConcrete.to_concrete_bytecode", "src/bytecode/concrete.py:_ConvertBytecodeToConcrete.concrete_instructions", "src/bytecode/concrete.py:_ConvertBytecodeToConcrete.compute_jumps"]}
{"id": "C46", "title": "Exception handlers survive Bytecode -> CFG -> Bytecode", "statement": "If ControlFlowGraph.from_bytecode(bc).to_bytecode() succeeds, every instruction is protected by the same handler (same target instruction, same push_lasti) as in bc, and the try markers of the result delimit regions properly; stack depths of the handlers are not kept.", "quantifier": "every Bytecode whose try markers delimit regions (each TryBegin object once, each TryEnd closing the open region after some instruction, none left open), any jumps in, out of and inside the regions", "why_tests_cant": "All placements of jumps, labels and final instructions relative to the regions: regions are cut at every block end and joined again.", "anchors": ["src/bytecode/cfg.py:ControlFlowGraph.from_bytecode", "src/bytecode/cfg.py:ControlFlowGraph.to_bytecode"]}
{"id": "C47", "title": "The declared prerequisites of instructions match what they use (3.11)", "statement": "The first number of pre_and_post_stack_effect never asks for more stack items than the instruction uses, so check_pre_and_post never reports an underflow valid code does not have; and an opcode always asks for exactly what it uses, so that no underflow goes unseen, iff it is not one of fifteen: LOAD_METHOD, BEFORE_WITH, SEND, YIELD_VALUE, JUMP_IF_FALSE_OR_POP, JUMP_IF_TRUE_OR_POP, RERAISE, LIST_APPEND, SET_ADD, MAP_ADD, LIST_EXTEND, SET_UPDATE, DICT_UPDATE, DICT_MERGE, PRECALL, each of which asks for less for some argument (a defect).", "quantifier": "every opcode of CPython 3.11, every argument, jump in {None, True, False}", "why_tests_cant": "All arguments; the tables in instr.py are maintained by hand and compare with CPython's documentation.", "anchors": ["src/bytecode/instr.py:Instr.pre_and_post_stack_effect", "src/bytecode/instr.py:STATIC_STACK_EFFECTS", "src/bytecode/instr.py:DYNAMIC_STACK_EFFECTS"]}
{"id": "C48", "title": "to_code with default options emits the program (3.11+)", "statement": "If Bytecode.to_code() with default options succeeds, the emitted code object denotes the Bytecode's program: reading it back as operations in order (opcode, operand, jump target operation, handler, location) gives the same operations; co_stacksize is the computed size and the stack depths written in the exception table are the computed ones.", "quantifier": "every Bytecode without manual CACHE instructions (see C19), with try markers delimiting regions (see C16) and away from the index-16 defect (see C21), every option of to_code, every platform from 3.11 on", "why_tests_cant": "The whole pipeline (graph, stack analysis, back, conversion, assembly, tables) over all programs.", "anchors": ["src/bytecode/bytecode.py:Bytecode.to_code", "src/bytecode/concrete.py:ConcreteBytecode.to_code", "src/bytecode/cfg.py:ControlFlowGraph.to_bytecode"]}
{"id": "C49", "title": "What argnames are", "statement": "The Bytecode of a code object has in argnames the names of the parameters of the code object (positional ones, keyword-only ones, *args and **kwargs) followed by as many of the next local variables as there are positional-only parameters; they are the parameters exactly when there is no positional-only parameter or no local variable but the parameters.", "quantifier": "every ConcreteBytecode", "why_tests_cant": "All combinations of counts and flags.", "anchors": ["src/bytecode/concrete.py:ConcreteBytecode.to_bytecode"]}
{"id": "C50", "title": "ConcreteBytecode.from_code reads the program", "statement": "ConcreteBytecode.from_code(code) succeeds and denotes the program of the code object: the operations the interpreter fetches in order, with their operands in the tables, jump targets, locations as co_positions() reports them and handlers of the exception table; tables and attributes are those of the code object.", "quantifier": "every code object of 3.11+ made of instructions with their EXTENDED_ARG and zeroed inline caches, any lengths and tables, whose positions InstrLocation accepts", "why_tests_cant": "All code strings, location tables and exception tables.", "anchors": ["src/bytecode/concrete.py:ConcreteBytecode.from_code", "src/bytecode/concrete.py:ConcreteInstr.disassemble", "src/bytecode/concrete.py:ConcreteBytecode._parse_exception_table"]}
{"id": "C51", "title": "Bytecode.from_code reads the program", "statement": "Bytecode.from_code(code) succeeds and the Bytecode denotes the program of the code object: same operations, operands, jump target operations, locations and handlers (with conserve_exception_block_stackdepth=True also their depths); the result has only valid instructions, no EXTENDED_ARG or CACHE, jumps to labels and well delimited try regions; attributes are kept.", "quantifier": "every code object of 3.11+ as the compiler writes them: indexes within the tables, jumps and handlers to instructions, disjoint protected regions made of whole instructions", "why_tests_cant": "All code objects; jumps, caches, EXTENDED_ARG and protected regions can be interleaved arbitrarily.", "anchors": ["src/bytecode/bytecode.py:Bytecode.from_code", "src/bytecode/concrete.py:ConcreteBytecode.from_code", "src/bytecode/concrete.py:ConcreteBytecode.to_bytecode"]}
{"id": "C52", "title": "from_code then to_code gives back the program", "statement": "If Bytecode.from_code(code).to_code(...) succeeds, the new code object denotes the same program as code: the same operations with the same operands, jump target operations, locations and handlers, the depths of handlers apart (and depths included when they are conserved and not recomputed).", "quantifier": "every code object of 3.11+ as the compiler writes them (see C51), every option of to_code, away from the index-16 defect (see C21)", "why_tests_cant": "The whole pipeline in both directions over all code objects; tables are rebuilt, instructions change size, jumps are recomputed.", "anchors": ["src/bytecode/bytecode.py:Bytecode.from_code", "src/bytecode/bytecode.py:Bytecode.to_code", "src/bytecode/concrete.py:ConcreteBytecode.to_bytecode", "src/bytecode/concrete.py:_ConvertBytecodeToConcrete.to_concrete_bytecode"]}
{"id": "C53", "title": "equality of graphs", "statement": "Two ControlFlowGraph objects compare equal exactly when they have the same attributes, argument names and computed stack size and their blocks, read one after the other each up to its first jump or final instruction, have the same instructions with equal operands and locations, jumps and handlers to blocks of the same number and the same protected regions; the limits of blocks, their fall-through and the code after that instruction are not compared (a defect), so that equal graphs with the same block sizes and nothing hidden are the same program; comparison is symmetric and changes nothing but the handler depths.", "quantifier": "every pair of graphs, any number of blocks, jumps, handlers and instructions", "why_tests_cant": "Needs all pairs of graphs: a difference anywhere must be seen, blocks are compared by number and try markers by pairing.", "anchors": ["src/bytecode/cfg.py:ControlFlowGraph.__eq__", "src/bytecode/cfg.py:ControlFlowGraph._get_instructions"]}
{"id": "C54", "title": "ControlFlowGraph.to_code emits the program of the graph (3.11+)", "statement": "If ControlFlowGraph.to_code() succeeds, the emitted code object denotes the program of the graph: reading it back gives the operations of the blocks, one block after the other, with the same operands, locations, handlers and with jumps to the operation their block starts with; co_stacksize is the size given or the one compute_stacksize gives.", "quantifier": "every graph of any shape, made or edited by any means, with instructions of any kind but manual CACHE (see C19), try markers delimiting regions, every option of to_code, every platform from 3.11 on", "why_tests_cant": "The whole pipeline (stack analysis, flattening, conversion, assembly, tables) over all graphs.", "anchors": ["src/bytecode/cfg.py:ControlFlowGraph.to_code", "src/bytecode/cfg.py:ControlFlowGraph.to_bytecode", "src/bytecode/cfg.py:ControlFlowGraph.compute_stacksize"]}
{"id": "C55", "title": "co_stacksize suffices for the instructions of the Bytecode", "statement": "If Bytecode.to_code() succeeds, then along every execution of the Bytecode's instruction list (each instruction followed by the next one, or by the instruction after the label it jumps to) the number of values on the stack never exceeds co_stacksize, no instruction pops more values than there are, and co_stacksize is reached; if compute_stacksize raises RuntimeError some execution underflows.", "quantifier": "every Bytecode in which each instruction is always met with the same number of values on the stack, executions of any length, every platform", "why_tests_cant": "Executions are unbounded and the analysis works on another representation, the graph.", "anchors": ["src/bytecode/bytecode.py:Bytecode.to_code", "src/bytecode/bytecode.py:Bytecode.compute_stacksize", "src/bytecode/cfg.py:ControlFlowGraph.from_bytecode", "src/bytecode/cfg.py:ControlFlowGraph.compute_stacksize"]}
{"id": "C56", "title": "Handlers are started with the depth computed for them", "statement": "In the code object (or the Bytecode) made from a control flow graph, the exception handler of each instruction has the target, the push_lasti flag and the stack depth that the TryBegin open at that instruction records in the graph, as computed by compute_stacksize(compute_exception_stack_depths=True), whenever consecutive regions with the same handler record the same depth; in general regions are cut by from_bytecode and joined again by to_bytecode, and the handler has the depth of the joined pieces (the specification Joined), which can be another one (a defect).", "quantifier": "every graph whose try markers delimit regions, every Bytecode, every number of regions cut and joined", "why_tests_cant": "The merge depends on the sequence of all regions met before; a wrong depth corrupts the stack only when an exception is raised there.", "anchors": ["src/bytecode/cfg.py:ControlFlowGraph.to_bytecode", "src/bytecode/cfg.py:ControlFlowGraph.to_code", "src/bytecode/bytecode.py:Bytecode.to_code", "src/bytecode/concrete.py:_ConvertBytecodeToConcrete.to_concrete_bytecode"]}
{"id": "C57", "title": "format_bytecode shows all of the code", "statement": "format_bytecode() gives a text for every Bytecode, ConcreteBytecode and ControlFlowGraph that can be iterated and, exactly, holds no SetLineno (AttributeError otherwise: a defect), and two objects of the same class with the same text show the same code: the same instructions in the same order with arguments of the same repr, jumps and handlers to the same label positions, block numbers or offsets, the same try regions with their flags and depths (None shown as 0), the same fall-through and exception table, and, with lineno=True, the same lines.", "quantifier": "every pair of Bytecode, of ConcreteBytecode, of ControlFlowGraph, of any length, both values of lineno", "why_tests_cant": "A difference anywhere in two arbitrary programs must show: names, indentation, numbers and texts of any length are concatenated without escapes.", "anchors": ["src/bytecode/__init__.py:format_bytecode", "src/bytecode/__init__.py:dump_bytecode"]}
{"id": "C58", "title": "Exactly the Bytecode that follow the rules can be assembled", "statement": "A Bytecode made of valid instructions is converted by to_concrete_bytecode(), given enough passes, if and only if: a TryEnd separates two TryBegin; each TryBegin has a depth, a handler label in the code and an instruction after it; each TryEnd comes after its TryBegin; each jump is to a label of the code, that lies after for the forward jumps and before (or just after) for the backward ones; cell and free variables are declared; (before 3.11) the first line is positive. Nothing else makes it fail.", "quantifier": "every Bytecode of valid instructions without manual CACHE, of any length up to the 31-bit limits, every number of passes larger than three per jump, every platform (with fewer passes a RuntimeError is also possible)", "why_tests_cant": "Totality: no unit test shows that no other input fails, in particular that jump resolution always converges and arguments stay in range.", "anchors": ["src/bytecode/concrete.py:_ConvertBytecodeToConcrete.to_concrete_bytecode", "src/bytecode/concrete.py:_ConvertBytecodeToConcrete.concrete_instructions", "src/bytecode/concrete.py:_ConvertBytecodeToConcrete.compute_jumps", "src/bytecode/bytecode.py:Bytecode.to_concrete_bytecode"]}
{"id": "C59", "title": "to_code fails for no other reason than the rules, the stack analysis and unwritable locations", "statement": "With a number of passes greater than 3 times the number of jumps, Bytecode.to_code() of a Bytecode whose try regions are delimited and not empty succeeds if and only if (unless a stack size is given and no depth has to be computed) its stack analysis does, it follows the rules of to_concrete_bytecode() (the depths of handlers being computed), and no location has an end line other than its line without a column, on 3.11+. In particular no region, jump, variable or location makes it fail otherwise.", "quantifier": "every Bytecode of valid instructions without manual CACHE, of any length up to the 31-bit limits; every stack effect function; with and without computing the depths", "why_tests_cant": "Totality over all programs, through the conversion to a graph, the analysis, the conversion back, jump resolution and the writers of the tables.", "anchors": ["src/bytecode/bytecode.py:Bytecode.to_code", "src/bytecode/concrete.py:ConcreteBytecode.to_code", "src/bytecode/cfg.py:ControlFlowGraph.from_bytecode", "src/bytecode/cfg.py:ControlFlowGraph.to_bytecode"]}
{"id": "C60", "title": "When the conversions between Bytecode and ControlFlowGraph succeed", "statement": "ControlFlowGraph.from_bytecode() succeeds if and only if every label that is the target of a jump or a handler is in the code; ControlFlowGraph.to_bytecode() succeeds if and only if no block holds a Label, each jump is the last instruction of its block and goes to a block of the graph, and every handler is a block of the graph; a Bytecode whose labels exist and whose TryBegin have no recorded depth always goes to a graph and back; with the default options, to_code() fails for no other reason than a missing label, the stack analysis, a rule of to_concrete_bytecode() or a location that cannot be written.", "quantifier": "every Bytecode of instructions with documented arguments and delimited regions, every graph of any shape with its try markers in order, any number of blocks and regions", "why_tests_cant": "Totality: no test shows that no other input makes a conversion raise.", "anchors": ["src/bytecode/cfg.py:ControlFlowGraph.from_bytecode", "src/bytecode/cfg.py:ControlFlowGraph.to_bytecode", "src/bytecode/cfg.py:BasicBlock.__iter__", "src/bytecode/bytecode.py:Bytecode.to_code"]}
{"id": "C61", "title": "When the stack analysis succeeds", "statement": "On a graph whose jumps and handlers go to its blocks, whose TryEnds have their TryBegin and whose instructions have a stack effect, compute_stacksize() raises nothing but RuntimeError (underflow), and AssertionError only if some path goes from inside a try region to the beginning of a region; without handlers it succeeds unless some execution path really underflows, so that to_code() compiles every Bytecode without handlers that follows the rules of C58/C59 and never pops from an empty stack; with handlers (3.11+) it succeeds, and to_code() compiles the code, when the graph has a stack map (one number of values and one try region for each block) in which nothing underflows and no region begins inside another. Without the last condition a program that follows all the rules can be refused.", "quantifier": "every such graph and Bytecode, any number of blocks, jumps, regions and paths, every stack effect function", "why_tests_cant": "Totality over all control flow graphs and all paths.", "anchors": ["src/bytecode/cfg.py:ControlFlowGraph.compute_stacksize", "src/bytecode/cfg.py:_StackSizeComputer", "src/bytecode/bytecode.py:Bytecode.to_code"]}
{"id": "C62", "title": "from_code then to_code always succeeds", "statement": "Bytecode.from_code(code, conserve_exception_block_stackdepth=True).to_code(stacksize=n, compute_exception_stack_depths=False) never fails on a code object as the compiler writes them, given enough passes, and the code object written denotes exactly the program of the one read (operations, operands, jump targets, locations, handlers with depths); what from_code reads follows every rule of C58/C59; with the default options the round trip succeeds if and only if the stack analysis does, and keeps the program, depths apart.", "quantifier": "every code object of 3.11+ as the compiler writes them (C51), whose cell slots are cell variables, whose positions without columns are on one line, up to the 31-bit limits; any number of jumps, regions, variables", "why_tests_cant": "Totality over all code objects through both directions of the conversion: no test shows that no code object is refused.", "anchors": ["src/bytecode/bytecode.py:Bytecode.from_code", "src/bytecode/bytecode.py:Bytecode.to_code", "src/bytecode/concrete.py:ConcreteBytecode.to_bytecode", "src/bytecode/concrete.py:_ConvertBytecodeToConcrete.to_concrete_bytecode"]}
{"id": "C63", "title": "On 3.8 to 3.10 to_code writes the program of the Bytecode", "statement": "On CPython 3.8 to 3.10, Bytecode.to_code() returns a code object whose bytes, tables and table of lines (co_lnotab before 3.10, co_linetable on 3.10), read as CPython reads them, denote the program of the Bytecode: the same operations in order with the same operands, targets of jumps (in bytes before 3.10, in code units on 3.10) and lines; its stack size is the one given or the one computed.", "quantifier": "every Bytecode of valid instructions for these versions, any number of instructions, jumps, EXTENDED_ARG and lines, every option of to_code; for lines, every Bytecode whose lines the table can hold (Spec/LineTables LinesWritable: in particular every location has a line)", "why_tests_cant": "Must hold for all programs: jump distances and line deltas of any size interact with EXTENDED_ARG and with the limits of the table entries.", "anchors": ["src/bytecode/bytecode.py:Bytecode.to_code", "src/bytecode/concrete.py:ConcreteBytecode.to_code", "src/bytecode/concrete.py:ConcreteBytecode._assemble_code", "src/bytecode/concrete.py:ConcreteBytecode._assemble_lnotab", "src/bytecode/concrete.py:ConcreteBytecode._assemble_linestable"]}
{"id": "C64", "title": "On 3.8 to 3.10 from_code reads the program of the code object", "statement": "On CPython 3.8 to 3.10, ConcreteBytecode.from_code() and Bytecode.from_code() of a code object as the compiler writes them succeed and give the program of the code object: the same operations, operands, targets of jumps and lines; the attributes and the docstring are kept.", "quantifier": "every code object with well formed bytes, jumps to instructions, indexes within the tables and a table of lines covering the code with positive lines; any size, with and without pruning", "why_tests_cant": "Totality and exactness over all code objects.", "anchors": ["src/bytecode/bytecode.py:Bytecode.from_code", "src/bytecode/concrete.py:ConcreteBytecode.from_code", "src/bytecode/concrete.py:ConcreteBytecode.to_bytecode", "src/bytecode/concrete.py:ConcreteInstr.disassemble"]}
{"id": "C65", "title": "On 3.8 to 3.10 from_code then to_code always succeeds and keeps the program", "statement": "On CPython 3.8 to 3.10, Bytecode.from_code(code).to_code(stacksize=n), given enough passes, never fails on a code object as the compiler writes them, and the code object written denotes exactly the program of the one read, lines included; with the default options it succeeds if and only if the stack analysis of the graph does, and keeps the program.", "quantifier": "every code object of C64 with a positive first line and a size up to the 31-bit limits; for lines, those whose lines the table of the version can hold again (all of them before 3.10)", "why_tests_cant": "Totality and identity over all code objects.", "anchors": ["src/bytecode/bytecode.py:Bytecode.from_code", "src/bytecode/bytecode.py:Bytecode.to_code", "src/bytecode/concrete.py:ConcreteBytecode.from_code", "src/bytecode/concrete.py:ConcreteBytecode.to_code"]}
{"id": "C66", "title": "The code objects of to_code are well formed and can be read back", "statement": "On CPython 3.11 and later, the code object Bytecode.to_code() returns is one the compiler could have written: whole instructions with their EXTENDED_ARG and zeroed inline caches, indexes within the tables, jumps and handlers going to instructions, protected regions apart and made of whole instructions. from_code() reads it back without failing as the program that was written, and reading and writing it again, keeping depths and stack size, never fails and gives the same program.", "quantifier": "every Bytecode without manual CACHE, of valid instructions and delimited non empty try regions, whose jumps and handlers go to an instruction, whatever its size and the options of to_code, provided no try region starts with an instruction that needs an EXTENDED_ARG (then the region is lost on reading: proved on a witness)", "why_tests_cant": "Well-formedness of every output, and a fixed point over all programs.", "anchors": ["src/bytecode/bytecode.py:Bytecode.to_code", "src/bytecode/concrete.py:ConcreteBytecode.to_code", "src/bytecode/concrete.py:_ConvertBytecodeToConcrete.compute_jumps", "src/bytecode/bytecode.py:Bytecode.from_code", "src/bytecode/concrete.py:ConcreteBytecode.from_code"]}
{"id": "C67", "title": "The control flow predicates of instructions say what CPython does", "statement": "is_uncond_jump() is true exactly of the instructions that always jump, is_final() exactly of those control never goes on from (returns, raises, unconditional jumps), has_jump() exactly of those with a target, is_cond_jump() exactly of those that either jump or go on, FOR_ITER and SEND excepted; a jump is exactly one of absolute, forward relative and backward relative, backward as dis says.", "quantifier": "every instruction name for is_uncond_jump and is_final; every opcode of the tables of 3.9 to 3.13 for the others", "why_tests_cant": "Graph construction, stack analysis and jump encoding rest on these predicates for every opcode of every release; tests use a handful.", "anchors": ["src/bytecode/instr.py:BaseInstr.is_uncond_jump", "src/bytecode/instr.py:BaseInstr.is_final", "src/bytecode/instr.py:BaseInstr.is_cond_jump", "src/bytecode/instr.py:BaseInstr.has_jump", "src/bytecode/instr.py:BaseInstr.is_abs_jump", "src/bytecode/instr.py:BaseInstr.is_forward_rel_jump", "src/bytecode/instr.py:BaseInstr.is_backward_rel_jump"]}
{"id": "C68", "title": "Editing a run of instructions changes nothing else", "statement": "Replacing, inserting or deleting a run of instructions in a Bytecode list changes that run of the program only: all the other operations keep names, operands, locations and handlers, every jump and handler following the instruction it goes to; the new instructions run under the handler in force there. The same holds of code objects read with from_code, edited and written with to_code; and writing never fails when the new instructions are well made (with default options: unless their stack cannot be analysed).", "quantifier": "every Bytecode, every place in it, all runs of instructions removed and added that do not change the location the next instruction inherits; for code objects, every code object as the compiler writes them on 3.8+ (before 3.11 only lines are kept, and on 3.10 only lines that can be written)", "why_tests_cant": "Instrumentation is the main use of the library and must be right for every function and every place edited: offsets, jump widths, tables and EXTENDED_ARG all change.", "anchors": ["src/bytecode/bytecode.py:Bytecode.from_code", "src/bytecode/bytecode.py:Bytecode.to_code", "src/bytecode/concrete.py:_ConvertBytecodeToConcrete", "src/bytecode/concrete.py:ConcreteBytecode.to_bytecode", "src/bytecode/instr.py:Label"]}
{"id": "C69", "title": "The default round trip recomputes the depths of the exception table", "statement": "On CPython 3.11 and later, Bytecode.from_code(code).to_code() with the default options, which compute the stack size and the depths of the exception table again, gives a code object with the same program, the depths the handlers are entered with included, and a stack size that suffices along every execution, exceptions included.", "quantifier": "every code object as the compiler writes them, without two-variable opcodes, whose stack depth at each instruction is determined (it has a stack map without underflow, agreeing with the recorded depths of the handlers, and no dead protected region)", "why_tests_cant": "Depths of handlers are computed along a traversal order; agreement with the compiler must hold for every shape of control flow.", "anchors": ["src/bytecode/bytecode.py:Bytecode.from_code", "src/bytecode/bytecode.py:Bytecode.to_code", "src/bytecode/cfg.py:ControlFlowGraph.compute_stacksize", "src/bytecode/cfg.py:_StackSizeComputer", "src/bytecode/concrete.py:ConcreteBytecode.to_code"]}
{"id": "C70", "title": "How many passes to_code needs", "statement": "Jump targets are resolved in passes. If to_code() succeeds with some value of compute_jumps_passes, it returns the same code object for every value larger than the number of EXTENDED_ARG before jumps in that code object; so the default of 10 is enough as long as there are at most 9 of them. The bound is attained: for every N there is a program that N passes do not assemble (RuntimeError) and N + 1 do.", "quantifier": "every Bytecode without manual CACHE, of valid instructions and delimited try regions, all supported releases, all options of to_code", "why_tests_cant": "A termination bound for a fixed point iteration, for all programs; the bound is attained (a chain of jumps is given that needs exactly that many passes).", "anchors": ["src/bytecode/bytecode.py:Bytecode.to_code", "src/bytecode/concrete.py:_ConvertBytecodeToConcrete.compute_jumps", "src/bytecode/concrete.py:_ConvertBytecodeToConcrete.to_concrete_bytecode"]}
{"id": "C71", "title": "A round trip lengthens neither the code nor its tables", "statement": "On CPython 3.11 and later, reading a code object and writing it again adds no constant, name or variable to its tables; and when they have at most 256 entries no instruction gets more EXTENDED_ARG than it had and the code does not get longer, so that to_code() succeeds with any number of passes larger than the number of EXTENDED_ARG before jumps in the original code.", "quantifier": "every code object as the compiler writes them, without two-variable opcodes, all options of to_code; for the length of the code, tables of at most 256 entries (with more the code can get longer: proved on a witness)", "why_tests_cant": "Minimality of the layout found by iteration, compared to the layout of an arbitrary code object.", "anchors": ["src/bytecode/bytecode.py:Bytecode.from_code", "src/bytecode/bytecode.py:Bytecode.to_code", "src/bytecode/concrete.py:_ConvertBytecodeToConcrete.compute_jumps", "src/bytecode/concrete.py:_ConvertBytecodeToConcrete.add_const", "src/bytecode/concrete.py:ConcreteBytecode.to_bytecode"]}
{"id": "C72", "title": "to_code() depends on nothing but the program", "statement": "On CPython 3.11 and later, two Bytecode with the same attributes and argument names, the same operations (operands, jump targets, locations, handlers) and the same protected regions give the same code object, byte for byte, for the same stack size: the identity, number and place of the labels, unused labels, SetLineno or repeated locations, the identity of TryBegin and the number of passes do not show. The second is written whenever the first is, if it follows the rules of the assembler and there are more passes than EXTENDED_ARG before jumps in the code object.", "quantifier": "every pair of Bytecode without hand-written CACHE, two-variable opcodes or CellVar on an opcode of fast locals, whose variables are declared once; an explicit stack size, depths given; all numbers of passes", "why_tests_cant": "A statement about all pairs of programs; jump layout is a fixed point that could depend on the history of the iteration.", "anchors": ["src/bytecode/bytecode.py:Bytecode.to_code", "src/bytecode/concrete.py:_ConvertBytecodeToConcrete.to_concrete_bytecode", "src/bytecode/concrete.py:_ConvertBytecodeToConcrete.compute_jumps", "src/bytecode/concrete.py:_ConvertBytecodeToConcrete.concrete_instructions", "src/bytecode/concrete.py:ConcreteBytecode.to_code"]}
{"id": "C73", "title": "Protected regions survive one by one", "statement": "On CPython 3.11 and later, to_code() writes one exception table entry for each TryBegin/TryEnd pair, in the same order, in address order and without overlap, protecting exactly the same operations with the same handler operation, lasti flag and depth; from_code(conserve_exception_block_stackdepth=True) creates one TryBegin/TryEnd pair for each entry of a table in address order, around the same operations, with the same handler, lasti flag and depth; so writing and reading back gives the list of regions back, neither merged, split nor reordered.", "quantifier": "every Bytecode without hand-written CACHE whose TryBegin/TryEnd are well nested (C73 written), every well-formed code object with a table in address order (C73 read), every Bytecode of C66 (round trip); depths given, an explicit stack size", "why_tests_cant": "A statement about all programs and all code objects; tests compare the handlers of a few functions.", "anchors": ["src/bytecode/bytecode.py:Bytecode.to_code", "src/bytecode/bytecode.py:Bytecode.from_code", "src/bytecode/concrete.py:_ConvertBytecodeToConcrete.concrete_instructions", "src/bytecode/concrete.py:ConcreteBytecode.to_bytecode", "src/bytecode/concrete.py:ConcreteBytecode._parse_exception_table", "src/bytecode/concrete.py:ConcreteBytecode._assemble_exception_table"]}
{"id": "C74", "title": "What the library wrote is a fixed point of the round trip", "statement": "On CPython 3.11 and later, reading a code object that to_code() wrote (with from_code, keeping the recorded depths) and writing it again with its stack size gives the identical code object: same bytes, same constants, names and variables in the same order, same location table, same exception table, same attributes. In particular, for a code object of the compiler, whatever the options of the first round trip, the second round trip is the identity.", "quantifier": "every Bytecode as in C66 whose arguments are counted by its attributes, whose docstring is absent, None or a string, whose variables are declared once, without two-variable opcodes, and whose locations differ by something the code object keeps (otherwise false: witness); every code object as the compiler writes them on 3.11+ without two-variable opcodes; all numbers of passes above the number of EXTENDED_ARG before jumps", "why_tests_cant": "Idempotence of two composed conversions over all programs, down to the byte; tests compare a few functions.", "anchors": ["src/bytecode/bytecode.py:Bytecode.to_code", "src/bytecode/bytecode.py:Bytecode.from_code", "src/bytecode/concrete.py:ConcreteBytecode.from_code", "src/bytecode/concrete.py:ConcreteBytecode.to_code", "src/bytecode/concrete.py:ConcreteBytecode.to_bytecode", "src/bytecode/concrete.py:_ConvertBytecodeToConcrete"]}
{"id": "C75", "title": "An exception of the assembler names the mistake", "statement": "When to_concrete_bytecode raises, the class of the exception says what is wrong with the Bytecode: ValueError means a first line that is not positive (before 3.11), an undeclared cell or free variable, or a relative jump whose label lies in the wrong direction; KeyError a label or handler that is not in the code, or a TryEnd that does not follow its TryBegin; IndexError a TryBegin after the last instruction; AssertionError a TryBegin without depth, a two-variable opcode on a cell variable, or a jump to a BasicBlock; RuntimeError two TryBegin without a TryEnd between them, or no more passes than three per jump. No other exception is raised, and a Bytecode with one of these mistakes is never converted (other than too few passes, which may be enough).", "quantifier": "every Bytecode made of instructions the constructors accept, without hand-written CACHE, within the size limits of the format; all numbers of passes; all versions", "why_tests_cant": "A statement about every way in which every Bytecode can be wrong, including several mistakes at once, after any number of passes.", "anchors": ["src/bytecode/concrete.py:_ConvertBytecodeToConcrete.to_concrete_bytecode", "src/bytecode/concrete.py:_ConvertBytecodeToConcrete.concrete_instructions", "src/bytecode/concrete.py:_ConvertBytecodeToConcrete.compute_jumps", "src/bytecode/bytecode.py:Bytecode.to_concrete_bytecode", "src/bytecode/bytecode.py:_BaseBytecodeList.__iter__"]}
{"id": "C76", "title": "ConcreteBytecode.to_code writes what the ConcreteBytecode says", "statement": "ConcreteBytecode.to_code with a stack size and without the computation of handler depths writes the instructions byte for byte, the tables and attributes in their order, the exception table entry for entry, and the stack size given; with the default options it is to_bytecode().to_code(). So ConcreteBytecode.from_code(code).to_code(stacksize=n, compute_exception_stack_depths=False) gives back the code string (useless EXTENDED_ARG included), constants, names, variables, exception regions, operations, operands, jumps and locations of the original, and ConcreteBytecode.from_code(code).to_code() the operations, operands, jumps and locations of the original, no longer than it.", "quantifier": "every code object whose code string is well formed (whole units, an operand word or CACHE units where the release puts them, and before 3.11 a line for each unit); every stack size; all versions, the default options from 3.11; the default round trip for code objects of the compiler with fewer than ten EXTENDED_ARG before jumps; before 3.11 the lines when the line table can express them", "why_tests_cant": "A statement about every code object, including those no compiler writes; a test compares a few samples.", "anchors": ["src/bytecode/concrete.py:ConcreteBytecode.to_code", "src/bytecode/concrete.py:ConcreteBytecode.from_code", "src/bytecode/concrete.py:ConcreteBytecode._assemble_code", "src/bytecode/concrete.py:ConcreteBytecode._assemble_exception_table", "src/bytecode/concrete.py:ConcreteBytecode._parse_exception_table"]}
{"id": "C77", "title": "The ways to assemble agree", "statement": "On CPython 3.11 and later b.to_code() is c = b.to_concrete_bytecode(), n = b.compute_stacksize(), c.to_code(stacksize=n, compute_exception_stack_depths=False), exceptions included; with a stack size and without the computation of depths (never done before 3.11), b.to_code(stacksize=n) is b.to_concrete_bytecode().to_code(stacksize=n); ControlFlowGraph.from_bytecode(b).to_code() is b.to_code(); compute_stacksize() of a Bytecode, ConcreteBytecode or ControlFlowGraph is the co_stacksize that its to_code() writes, and writing the graph afterwards with that size gives the same code object.", "quantifier": "every Bytecode, ConcreteBytecode and ControlFlowGraph, well formed or not; all options; the numbers of passes of Bytecode.to_code; all versions", "why_tests_cant": "An equality between call sequences for every input, including which exception is raised.", "anchors": ["src/bytecode/bytecode.py:Bytecode.to_code", "src/bytecode/bytecode.py:Bytecode.to_concrete_bytecode", "src/bytecode/bytecode.py:Bytecode.compute_stacksize", "src/bytecode/concrete.py:_ConvertBytecodeToConcrete.to_concrete_bytecode", "src/bytecode/concrete.py:ConcreteBytecode.to_code", "src/bytecode/concrete.py:ConcreteBytecode.compute_stacksize", "src/bytecode/cfg.py:ControlFlowGraph.to_code", "src/bytecode/cfg.py:ControlFlowGraph.compute_stacksize"]}
{"id": "C78", "title": "An exception of the graph conversions names the mistake", "statement": "When ControlFlowGraph.from_bytecode raises, the class of the exception says what is wrong: RuntimeError two TryBegin without a TryEnd between them (and this is always refused), KeyError a label or handler that is not in the code (always refused) or a TryEnd before its TryBegin, AssertionError a TryEnd outside of any region just after an instruction that ends the control flow, or a jump to a BasicBlock, TypeError a jump to a BasicBlock in code with regions; no other exception is raised, and code without these mistakes is converted. When ControlFlowGraph.to_bytecode raises: ValueError a Label in a block, a jump before the last instruction of its block, or two TryBegin directly after a TryEnd; AssertionError a jump whose target is not a block, a TryBegin in a region with another handler, or a TryBegin with a depth after one without; KeyError a jump or handler that is not in the graph, or a TryEnd before its TryBegin; no other exception, and a graph without these mistakes is converted.", "quantifier": "every Bytecode and every ControlFlowGraph made of instructions the constructors accept, with the markers in any order", "why_tests_cant": "A statement about every way in which every Bytecode or graph can be wrong, including several mistakes at once.", "anchors": ["src/bytecode/cfg.py:ControlFlowGraph.from_bytecode", "src/bytecode/cfg.py:ControlFlowGraph.to_bytecode", "src/bytecode/cfg.py:BasicBlock.__iter__", "src/bytecode/cfg.py:BasicBlock.get_jump", "src/bytecode/bytecode.py:_BaseBytecodeList.__iter__"]}
{"id": "C79", "title": "An exception of to_bytecode names the mistake", "statement": "When ConcreteBytecode.to_bytecode raises, the class of the exception says what is wrong: IndexError an argument beyond the constants, names, local variables or cells and free variables; TypeError a pair of local variables of which one is a free variable (3.13), or an EXTENDED_ARG before an instruction without argument other than NOP; ValueError no such comparison or intrinsic, a constant that is a Label, a BasicBlock or UNSET, a CACHE with an argument when CACHE entries are kept, a line 0 before 3.11, an EXTENDED_ARG at the end, or prefixes that give an argument over 31 bits; KeyError a jump to an offset where no instruction starts, or a handler there of an entry that starts at an instruction or stops at an opcode; AssertionError two entries of the exception table that start at the same offset. Each of these mistakes is refused, no other exception is raised, and code without them is converted.", "quantifier": "every ConcreteBytecode made of instructions the constructors accept (any arguments, tables and prefixes), every version, both options", "why_tests_cant": "A statement about every way in which every ConcreteBytecode can be wrong, including several mistakes at once.", "anchors": ["src/bytecode/concrete.py:ConcreteBytecode.to_bytecode", "src/bytecode/concrete.py:ConcreteBytecode._remove_extended_args", "src/bytecode/concrete.py:ConcreteInstr.get_jump_target", "src/bytecode/instr.py:Instr._check_arg"]}
{"id": "C80", "title": "What was converted can be converted back, but for three cases", "statement": "The ConcreteBytecode that to_concrete_bytecode returns is accepted by to_bytecode, except when: two TryBegin have no instruction between them (the region of the first is empty): AssertionError; a jump, or a TryBegin, has as target a Label that no instruction follows: KeyError; the code has inline CACHE entries and prune_caches=False: ValueError. No other exception is raised. In particular, with prune_caches=True, a Bytecode whose labels are all followed by an instruction and whose try regions hold an instruction is converted there and back.", "quantifier": "every Bytecode without manual CACHE, with try markers delimiting regions, that to_concrete_bytecode accepts, every version and both options; excluded: the two-variable instructions of C21, and on 3.13 free variables that are also local variables", "why_tests_cant": "A statement about every program that the first conversion accepts: all operands, tables, jumps and regions.", "anchors": ["src/bytecode/concrete.py:_ConvertBytecodeToConcrete.to_concrete_bytecode", "src/bytecode/concrete.py:ConcreteBytecode.to_bytecode"]}
{"id": "C81", "title": "An exception of from_code names the mistake", "statement": "On 3.11+, ConcreteBytecode.from_code raises ValueError when an opcode has no name or is instrumented, when co_positions() gives a position that InstrLocation does not accept (for an instruction or, before 3.13, one of its inline caches), when the code ends with EXTENDED_ARG, and when an argument does not fit in 31 bits; TypeError when EXTENDED_ARG precedes an opcode without argument other than NOP; and nothing else. With extended_arg=True only the first two remain. Bytecode.from_code raises for these and, once the code is read, exactly for the mistakes of C79. In all other cases they succeed, whatever the bytes of inline caches, the unused argument bytes and the exception table. On 3.8 to 3.10 the same holds with lines in place of positions: ValueError for an opcode without a name, a line below 1, EXTENDED_ARG at the end or an argument over 31 bits, TypeError as above, and nothing else.", "quantifier": "every code object: any bytes, any tables, any position table (3.8 to 3.10: of even length, with a line table that starts lines at instructions and covers the code)", "why_tests_cant": "Arbitrary byte strings: the classes of malformed code are spelled out and shown to be exhaustive.", "anchors": ["src/bytecode/concrete.py:ConcreteBytecode.from_code", "src/bytecode/concrete.py:ConcreteBytecode.remove_extended_args", "src/bytecode/bytecode.py:Bytecode.from_code"]}
{"id": "C82", "title": "An exception of to_code names the mistake", "statement": "ConcreteBytecode.to_code with a stack size and without the computation of depths raises ValueError exactly when a location spans several lines without columns, else AssertionError exactly when an entry of the exception table has a negative number or stops more than one unit before it starts (3.11+); before 3.11 it never fails. Bytecode.to_code with a given size and no computation of depths raises only for a mistake of C75 or such a location. With the default options (3.11+) it raises KeyError only if a label of a jump or handler is missing, or the exception of the stack analysis (RuntimeError for an underflow, AssertionError for a try region entered from inside another), or for a mistake of C75 in the code as it was given, or ValueError for such a location.", "quantifier": "every ConcreteBytecode with valid instructions; every well-made Bytecode whose try regions are well formed and hold instructions, any stack effects, any number of passes", "why_tests_cant": "The exception comes after three conversions of the code; that it still names a mistake of the code the user wrote has to hold for all of them.", "anchors": ["src/bytecode/concrete.py:ConcreteBytecode.to_code", "src/bytecode/bytecode.py:Bytecode.to_code", "src/bytecode/cfg.py:ControlFlowGraph.compute_stacksize"]}
{"id": "C83", "title": "An exception of ControlFlowGraph.to_code names the mistake", "statement": "ControlFlowGraph.to_code with a given stack size raises an exception only if the graph has one of the mistakes of C78 for that exception (to_bytecode fails), or: ValueError for an undeclared cell or free variable, a forward jump to a block that does not start after it, a backward jump over an instruction, a location of several lines without columns (3.11+), a first line 0 (before 3.11); AssertionError for a TryBegin without depth or a two-variable opcode without two variables; RuntimeError only with 10 <= 3 * (number of jumps to blocks). When the size is computed, compute_stacksize raises the exception, or the same holds with the depths it has set; with the default options and no TryBegin after a jump in its block, no depth is missing. A graph without these mistakes is converted.", "quantifier": "every graph of valid instructions without a manual CACHE, whose blocks are distinct, whose jumps go to blocks and whose try regions are well formed and hold an instruction; any stack effects, sizes and options; every version", "why_tests_cant": "The exception comes after up to four conversions; that it still names a mistake in the blocks the user wrote has to hold for every graph.", "anchors": ["src/bytecode/cfg.py:ControlFlowGraph.to_code", "src/bytecode/cfg.py:ControlFlowGraph.to_bytecode", "src/bytecode/cfg.py:ControlFlowGraph.compute_stacksize", "src/bytecode/concrete.py:_ConvertBytecodeToConcrete"]}
{"id": "C84", "title": "Flags inferred for a ControlFlowGraph", "statement": "infer_flags of a graph with a try marker always raises. Without try markers it gives the flags (or the exception) it gives for a Bytecode with the instructions of the blocks, each block up to its first jump or final instruction: so they are right in the sense of C35 and C36; and if nothing follows such an instruction in its block, the same as for the result of to_bytecode. For a Bytecode without try markers, from_bytecode changes nothing: the graph gets the flags, or the exception, of the Bytecode. update_flags changes nothing but the flags and doing it twice is doing it once.", "quantifier": "every graph with valid instructions and jumps to blocks of the graph, every Bytecode with valid instructions, every previous value of the flags, is_async None, True or False, every version", "why_tests_cant": "infer_flags looks at a rewritten list of the instructions of the graph, in which jumps are replaced and code is left out; that the result is the same has to hold for all graphs.", "anchors": ["src/bytecode/flags.py:infer_flags", "src/bytecode/cfg.py:ControlFlowGraph._get_instructions", "src/bytecode/bytecode.py:BaseBytecode.update_flags"]}
{"id": "C85", "title": "Blocks that control cannot enter can be deleted", "statement": "Deleting from a graph any blocks that control cannot enter (no jump, no handler, no end of a protected region and no fall-through leads to them from the first block), and whose protected regions are their own, raises nothing, leaves the code of the other blocks in place, and changes neither the result of compute_stacksize, nor whether it succeeds, nor the depths it records in the remaining blocks, nor the co_stacksize that to_code writes. The blocks get_dead_blocks returns are such blocks when fall-through is written as a jump; otherwise not: a block reached only by fall-through is returned, and compute_stacksize raises KeyError once it is deleted.", "quantifier": "every graph, every list of such blocks, both values of compute_exception_stack_depths, every version", "why_tests_cant": "The analysis follows every path through the graph and keeps per-block tables; that nothing of an unused block leaks into the result has to hold for every graph.", "anchors": ["src/bytecode/cfg.py:ControlFlowGraph.__delitem__", "src/bytecode/cfg.py:ControlFlowGraph.compute_stacksize", "src/bytecode/cfg.py:_StackSizeComputer", "src/bytecode/cfg.py:ControlFlowGraph.get_dead_blocks"]}
{"id": "C86", "title": "What check_pre_and_post changes", "statement": "On 3.11 and 3.12, compute_stacksize with check_pre_and_post on and off returns the same size and records the same depths when it succeeds both ways; the two ways differ only in that one may raise RuntimeError. On 3.11, for code without LIST_APPEND 0, SET_ADD 0, MAP_ADD 0 and MAP_ADD 1, turning the check off never makes the computation fail: the check only adds detected underflows. The same holds of the code object Bytecode.to_code writes.", "quantifier": "every graph and every Bytecode with valid instructions, handlers included, both values of compute_exception_stack_depths", "why_tests_cant": "The two ways take different numbers from different tables at every instruction of every path; that they agree is a statement about all instructions and all graphs.", "anchors": ["src/bytecode/cfg.py:ControlFlowGraph.compute_stacksize", "src/bytecode/cfg.py:_StackSizeComputer.run", "src/bytecode/instr.py:BaseInstr.pre_and_post_stack_effect", "src/bytecode/bytecode.py:Bytecode.compute_stacksize"]}
