# Formal model of MatthieuDartiailh/bytecode in Lean 4

## Trusted base
* Lean 4.33.0's kernel. Theorems may depend on `propext`, `Classical.choice`, `Quot.sound` only; no axiom is
  declared in this development and no compiled evaluation is used (kernel `decide` only).
* The reading of `/repo/src/bytecode/*.py` into `Verif/Model/*.lean`. The Python code is not executed here; each
  definition cites the lines it models, and any simplification is stated in its comment.
* The specification files `Verif/Spec/*.lean`: short, independent transcriptions of the CPython side
  (exception table reader, location table reader, lnotab / linetable readers, slot layout, execution paths).
* The standard-library tables (`opcode`, `dis`) are a parameter `Platform` of the model. What is assumed of them is
  the explicit predicate `Platform.WF`; the CPython 3.9, 3.10, 3.11, 3.12 and 3.13 tables are
  instantiated (`Verif/Instances`) and shown to satisfy it.

## Layout
* `Verif/Model/`  the code, function by function.
* `Verif/Spec/`   the specification vocabulary used in property statements.
* `Verif/Proofs/` helper lemmas.
* `Verif/Props/`  the property theorems, one file per group, each followed by non-vacuity examples.

## Conventions
* A Python exception is a value: `Except PyErr α`. Mutation of an object becomes a function returning the new object.
* Object identity (`Label`, `TryBegin`, `BasicBlock`) is a natural number.
* Python integers are `Int` where they may be negative, `Nat` where the code has validated them.
* A property false of the code is recorded: the negation is proved on a concrete witness and the strongest
  true form is proved under the suffix `_partial`.

## Plan per property
| id | model | proof |
|----|-------|-------|
| C01 | `_encode_varint`, `_parse_varint`, table assemble/parse over byte lists | induction on value (base 64 digits) then on the table |
| C02 | same | byte-level predicate, induction on digits and entries |
| C03 | `_pack_location`, `_push_locations`, `_assemble_locations`; spec decoder from `Objects/locations.md` | decoder inverts each form; induction on the run list |
| C04 | `InstrLocation.__init__`, `_pack_location` | case analysis |
| C05 | `_assemble_lnotab`, spec decoder | invariant on accumulated (offset, line) |
| C06 | `_assemble_linestable`, `_pack_linetable`, spec decoder | false in three ways (see Findings); `C06_exact` says for which codes the table is right (`Spec/LinesRight`), by induction over the instructions with the pending range as state |
| C07 | `ConcreteInstr._set`, `assemble` | base-256 digit induction; false for some extended_args, partial |
| C08 | `assemble`, `disassemble`, `_remove_extended_args` | induction on the list, inner induction on digits |
| C09, C10, C12 | `_set`, `_check_arg`, setters as a state machine | invariant by induction over operation lists |
| C11 | constructor | case analysis, iff |
| C13 | `legalize` for Bytecode, ConcreteBytecode, CFG (`Model/Legalize`) | induction on list, independent location semantics |
| C14, C15 | `compute_jumps`, pass loop (`Model/Convert`) | monotone iteration from the least layout |
| C16 | exception entries in the converter | invariant of the converter fold; `C16_exact` also gives the result for a leading empty region |
| C17-C21 | `concrete_instructions` | invariant of the converter fold |
| C22, C18 (back) | `to_bytecode` (`Model/ToBytecode`) | invariant of its loop; `C22_read` and `C18_exact` give what is read also for the defect of finding 7 (`Spec/ReadSlots`) |
| C23 | composition of C14-C22 | program meaning defined independently on both sides (`Spec/Program`); exact: `Spec/ReadSlots` says how an operand is read back, `Spec/LostRegions` which regions are lost; `C23_handlers_iff` when all are kept |
| C24, C25 | CFG edits with `_block_index` dictionary (`Model/CFG`) | invariant by induction over edit histories; `C25_exact`: every case of split_block |
| C26, C27 | `from_bytecode`, `to_bytecode` (`Model/CfgConv`) | loop invariants; positions of labels in `Spec/CfgCode` |
| C28 | DFS work-list of `get_dead_blocks` | reachability; false for fall-through, partial |
| C29-C33 | `_StackSizeComputer.run`, `compute_stacksize` (`Model/StackSize`), the trampoline run with fuel; `Proofs/StackFuel`: fuel is enough | DFS invariants, paths (`Spec/StackPaths`) by induction |
| C29, C31, C33 with handlers | the same model, 3.11+ | graphs described by a stack map (`Spec/StackMap`: the depth at each block entry, the smallest depth of each try region); `Proofs/StackMap` shows the analysis follows the map up to a non-negative offset and reaches offset 0, so the recorded depths are those of the map |
| C34-C36 | `infer_flags` with flags as `Nat` bits (`Model/Flags`) | case analysis and list induction |
| C37, C39 | `__eq__` of Bytecode and ConcreteBytecode (`Model/Equal`, `Model/Code`) | list induction; witnesses where it is coarser than equality |
| C38 | copies and slices (`Model/Copy`) | case analysis; witnesses for what copies drop or share |
| C40 | iteration of Bytecode (`iterElems`) | iff with a grammar of try markers |
| C41 | `to_code`, `from_code` (`Model/Code`) | composition of C01, C03, C08 |
| C42 | location table against `co_lines` | spec decoder; false for columns 128-255; `C42_exact` says exactly when it is right (the scanner reports as many units as the bytes with bit 0x80 announce) |
| C43, C47 | stack effects, pre/post split (`Model/Effects`), tables of 3.11 and 3.12 (`Instances`) | case analysis; comparison with the table of pops and pushes of the opcodes; `C43_signs_exact` and `C47_exact` list the exceptions completely |
| C44 | reading then reassembling a code string | induction on the units; exact: equal iff no NOP carries a prefix (Props/ExactCode) |
| C45 | the whole converter | composition of the converter lemmas (`Final`) |
| C46 | handlers through `from_bytecode`/`to_bytecode` | `handlersOf` (`Spec/CfgCode`) kept by the two loops |
| C48 | `Bytecode.to_code` | C26, C46, analysis only writes depths (`Proofs/Sized`), C45, then the reader of code objects of `Spec/CodeProgram` inverts the writer |
| C49 | argument names in `to_bytecode` | case analysis; the exact value, the parameters iff no positional-only parameter or no other local |
| C50 | `ConcreteBytecode.from_code` | code strings of shape `WellCoded` are assemblies of instructions (`Proofs/WellCoded`); the model's reader and the specification's reader agree on them (`Proofs/FromCode`) |
| C51 | `Bytecode.from_code` | totality of decoding on `Spec/CodeOK` (`Proofs/DecodeTotal`, `Proofs/FromCodeTotal`), then C22; options of `to_bytecode` only change depths and the result is well formed (`Proofs/DecodeTry`) |
| C52 | `from_code` then `to_code` | C51 then C48 |
| C53 | `ControlFlowGraph.__eq__`, `_get_instructions` (`Model/CfgEqual`) | the graph seen as a flat list, then the pairing argument of C37 (`Proofs/Equal`, `Proofs/CfgEqual`) |
| C54 | `ControlFlowGraph.to_code` | C26_to, C46_to, `DepthsOnly`, then C45 and the reader of code objects; the program of a graph is `Spec/GraphProgram` |
| C55 | `Bytecode.to_code`, `compute_stacksize` on the list of instructions | a simulation in both directions between executions of the list (`Spec/Linear`) and of its graph (C26, C27), then C29-C31 ; with exceptions (`Spec/LinearTry`): a simulation in the graph, the table of handlers being read from the code object (C48, C56), then C29, C31, C33 with stack maps |
| C56 | `ControlFlowGraph.to_bytecode`, `to_code`, depths of handlers | an invariant of the loop of `to_bytecode`: every TryBegin written has the depth common to its handler; then the program with depths as a function of code and handlers (`Proofs/ProgDepths`); without the hypothesis that pieces agree, the depth of a joined region is described from the pieces alone (`Spec/Joined`, `C56_joined`) |
| C57 | `format_bytecode` (`Model/Format`), `repr` a parameter | the text cut into lines: each line determines its element, by induction on the lists with the state of the writer (`Proofs/Format*`); totality by induction |
| C58 | `to_concrete_bytecode`, success or failure | each phase is total on `Spec/Assemblable` (`Proofs/AssembleA-C`: encoding, first pass, cells, jump passes with the measure of C15, exception table); conversely each rule is read off a success (`Proofs/AssembleD`) |
| C59 | `Bytecode.to_code`, success or failure | C58, then the writers of the tables are total on the result (`Proofs/AssembleE`); the rules only depend on the resolved code and the markers (`Proofs/AssembleF`), which the detour through the graph keeps (C26, C46), with no empty region (`Proofs/NoEmpty`) and all depths set (`Proofs/DepthsSet`) |
| C60 | `ControlFlowGraph.from_bytecode`, `to_bytecode`, success or failure | loop invariants: each lookup of a label, block or TryBegin made by the loops finds what an earlier step recorded (`Proofs/CfgTotal`, `Proofs/CfgToTotal`); rules in `Spec/GraphRules`; composition with C59 |
| C61 | `compute_stacksize`, `to_code`, success or failure | the errors of the recursion, by induction on it, with the paths it followed (`Proofs/StackReasons`, `Spec/RegionFlow`); without handlers a RuntimeError comes from a real path (C31); with a stack map (`Spec/StackMap`) that shows no underflow, the analysis is total (`Proofs/StackMapTotal`); composition with C59 and C60 |
| C62 | `Bytecode.from_code` then `to_code`, success | the Bytecode read follows each rule of Spec/Assemblable and Spec/Tries: invariants of the decoding loop (`Proofs/DecodeRules`, `Proofs/FromCodeRules`) from Spec/CodeOK and Spec/Rewritable; then C59, C60 and C52. `WellMade.intrinsic` (Spec/Assemblable) asks for documented arguments only of intrinsic opcodes |
| C63 | `Bytecode.to_code` on 3.8 to 3.10, default and given options | Spec/OldProgram: what CPython reads from the bytes, tables and lines; `Proofs/OldProgram` relates it to `Spec.programC` by induction over the instructions; C05/C06 for the tables of lines, under `LinesWritable` (what the table of the release can express) |
| C64 | `ConcreteBytecode.from_code`, `Bytecode.from_code` on 3.8 to 3.10 (`Model/OldCode`: `dis.findlinestarts`, `co_lines`, `disassemble`) | Spec/OldCodeOK; lines: `Proofs/OldLines`; instructions: `Proofs/OldRead`; no error: `Proofs/OldTotal` |
| C65 | the round trip on 3.8 to 3.10 | C63, C64, and the rules of C59/C60 as in C62 |
| C66 | the output of `Bytecode.to_code` against Spec/CodeOK and Spec/Rewritable | layout of the assembled cells (`Proofs/WellFormed*`), the exception table from the regions of C48, operands from the encoding; hypotheses on the source in Spec/WellFormed; then C51, C48, C62 |
| C67 | `is_uncond_jump`, `is_final`, `is_cond_jump`, `has_jump`, `is_abs_jump`, `is_forward_rel_jump`, `is_backward_rel_jump` | Spec/ControlFlow, a table of what CPython does after each instruction, written from its compiler; for all names by cases, for all opcodes of a release by evaluation of the whole table |
| C68 | editing a `Bytecode` as a list; `from_code`, `to_code` | Spec/Edit says which targets move (`moved`) and when an edit changes no inherited location; induction on the list for label positions and operations, then C48 and C51 (C64 before 3.11) for code objects |
| C69 | `from_code`, `to_code()` with the default options, 3.11+ | the traversal of `compute_stacksize` records the depth of the stack map (Spec/StackMap) in every `TryBegin` (C33); with C52, C55 and C61 the table written is the table read; example: a function compiled by CPython 3.11 (Props/RealEx); Props/Checked: a computable test (given a candidate stack map) that implies all hypotheses, proved sound, and passed by five functions with `with`, nested `try`, generators and coroutines compiled by CPython 3.11 (Props/RealCodes). As a test of the hypotheses, not a proof, the model was also run on 1996 code objects with an exception table of the standard library: 1992 round trips keep the program and the stack size, about 99% pass the test; the four others are as Props/RealDiffers (finding 33) |
| C70 | `_ConvertBytecodeToConcrete.compute_jumps`, `to_code` | each pass that is not the last enlarges at least one jump and none shrinks, and the sizes in the result bound them all (Proofs/PassBound); sizes to EXTENDED_ARG of the bytes through C48; the bound is attained, for every number (C70_tight: a chain of jumps in which each pass lengthens exactly one, by induction on the passes, Proofs/Chain, Proofs/ChainPass) |
| C71 | `from_code`, `to_code`, 3.11+ | tables: exactly the values used, in order of first use (C17_exact), all from the original; size: the original layout is closed under the pass, so the iteration from the smallest layout stays below it (Proofs/LayoutBound, SameRoom) |
| C72 | `to_concrete_bytecode`, `to_code`, 3.11+ | two conversions with the same program: the tables are the values in order of first use (C17_exact), the arguments of non-jumps are determined by the program, those of jumps by minimality of both layouts (each is below the other: Proofs/SameCode), the exception table by the regions (Proofs/SameTable) |
| C73 | `to_code`, `from_code`, 3.11+ | writing: each entry of the concrete table is matched with its TryBegin/TryEnd pair (Final.side) and the units of the entry are counted in operations (Proofs/CodeRegions); reading: induction on the placing of TryBegin/TryEnd by the decoder, with the number of operations placed so far (Proofs/DecodeRegions) |
| C74 | `to_code`, `from_code`, 3.11+ | what is read has the program of what was written (C48, C66), its tables are the values in order of first use of the same uses (C17_exact, Proofs/Again) and its locations are those kept, which give the same table when they told the same things apart (Proofs/KeptLocs); then C72 |
| C75 | `to_concrete_bytecode`, all versions | each step of the conversion is inverted for errors: the loop over the elements with the invariant of C58 (Proofs/Errors), the passes with a layout invariant that assumes nothing about the direction of jumps, the exception table (Proofs/ErrorsB); Spec/Errors lists the mistakes in terms of the elements of the Bytecode |
| C76 | `ConcreteBytecode.to_code`, `ConcreteBytecode.from_code`, all versions | writing the instructions read: same opcode, argument and number of EXTENDED_ARG give the same bytes (Proofs/ConcreteWrite); exception entries through the varint round trip; positions unit by unit; the default options reduce to C62 |
| C77 | `Bytecode.to_code`, `to_concrete_bytecode` with `compute_exception_stack_depths`, `ConcreteBytecode.to_code`, `ControlFlowGraph.to_code`, the three `compute_stacksize` | equality of the compositions in the exception monad, all inputs (Props/Routes) |
| C78 | `from_bytecode`, `to_bytecode` of graphs, `BasicBlock.__iter__`, on Bytecode and graphs with markers in any order | the mistakes are spelled out on the list of elements (Spec/GraphErrors); invariants of the two loops (which regions are open, what was seen, whether an instruction came since the last TryEnd) show that each place that raises has met one of them (Proofs/CfgErrors, Proofs/CfgToErrors) |
| C79 | `ConcreteBytecode.to_bytecode`, `_remove_extended_args` on any ConcreteBytecode | the mistakes are spelled out on the instructions, their offsets and the tables (Spec/Undecodable); each instruction either is decoded and has no mistake or raises the exception of one of its mistakes (Proofs/DecodeErrors), the prefixes likewise (Proofs/PrefixErrors); induction over the loop, whose labels, jumps and entries are characterised exactly |
| C80 | `to_concrete_bytecode` then `ConcreteBytecode.to_bytecode` | the three cases are spelled out on the elements of the Bytecode (Spec/ConvertBack); by C79 only the mistakes of Spec/Undecodable matter, and each is shown equivalent to one of the cases or impossible, from the layout of the result (positions of labels, jumps, regions and operands of Proofs/Meaning) |
| C81 | `from_code` on arbitrary bytes (3.8 to 3.13) | the mistakes are spelled out on the units of the code and the instructions the interpreter fetches (Spec/Unreadable); induction on the bytes shows that listing stops exactly at a bad opcode or position, and that the prefixes that cannot be folded are those of the fetched instructions (Proofs/Unreadable); C79 does the rest; before 3.11 the same over the units and the line table (Spec/UnreadableOld) |
| C82 | the exceptions of `to_code` | writing fails exactly on a location or an entry (C01, C04); the steps are taken apart, and a mistake found in the code that comes out of the stack analysis is traced back to the code that went in, instruction by instruction and label by label (Props/ToCodeErrors) |
| C83 | the exceptions of `ControlFlowGraph.to_code` | a mistake of the Bytecode that comes out of `to_bytecode` (C75, C82) is traced back to the blocks through the equality of the resolved items (C26), each label to the block it stands for; a computation of the stack size changes the depths only (Props/GraphCodeErrors) |
| C84 | `infer_flags` of a graph (`Model/CfgFlags`) | the walk over the blocks is compared step by step with the one of `==` (C53) and with the elements it shows; the loop of `infer_flags` does not depend on the operand of a jump (Props/CfgFlags); with C26 for the conversions |
| C85 | `__delitem__`, `compute_stacksize` (`Model/CFG`, `Model/StackSize`) | the two runs of the recursion, on the graph with and without the blocks, are compared step by step (`Proofs/DeadRemoval`: same results, nothing recorded outside the blocks entered), then the depths and the maximum over the handlers; the fuel of the smaller graph is enough (C32) |
| C86 | `compute_stacksize` with two choices of effects (`Model/StackSize`, `Model/StackEffect`) | the two runs of the recursion are compared step by step (`Proofs/CheckOption`): effects with the same sum (C43) give the same sizes; the sign of the second effect (C43) makes the check the stricter of the two |

Not modelled: `print` of `dump_bytecode`, `typing` machinery, `marshal` (a parameter),
`types.CodeType` validation, CPython's evaluation of the code. `CodeType` itself is the record `Code` with the reordering of
its cell variables (`codeCellvars`); `co_positions()`, `co_code`, `co_exceptiontable` are read by `Spec/LocFormat` and
`Spec/CodeProgram`, from the documentation of CPython.

## Findings
Behaviours of the code that contradict a property as one would state it. Those marked (P) are proved on a witness.
1. (P, C06) 3.10 line table: an instruction after a no-line instruction, with the line of the one before it, loses its
   line (concrete.py 552); a no-line run longer than 254 bytes continues with delta 0 (503-510); a SetLineno before a
   no-line instruction shifts later lines.
2. (P, C07) `size` differs from `len(assemble())` for NOP with extended_args and for too small extended_args.
3. (P, C04/C42) the one-line form of a location is used for columns up to 255, CPython allows < 128.
4. (P, C16) an empty try region before the first instruction gets stop index -1: its handler protects the whole code.
5. (P, C19) after one manual CACHE the number still required is reset (concrete.py 1363-1365).
6. (P, C21) two-variable opcodes: `> 16` should be `> 15`; with index 16 the wrong variables are encoded.
7. (P, C22) 3.13 `to_bytecode` drops free variables that are also local ones from its table: later indexes shift.
8. (P, C23) a try region whose first instruction has EXTENDED_ARG is lost by `to_bytecode`; a region followed by an empty
   one comes back nested (iteration raises); a label at the end of the code makes `to_bytecode` raise KeyError;
   an empty region directly before another one makes `to_bytecode` raise AssertionError (two entries with the same start).
9. (P, C44) a NOP preceded by EXTENDED_ARG loses the prefix on reassembly; EXTENDED_ARG before another opcode without
   argument raises TypeError.
10. ConcreteInstr.copy() drops extended_args; ConcreteBytecode.copy() and slicing drop the exception table.
11. `to_bytecode(prune_caches=False)` raises on a CACHE with argument 0.
12. `Intrinsic2Op` lacks value 5 of 3.13: `to_bytecode` raises ValueError.
13. (P, C58) The default limit of 10 passes can raise RuntimeError although a layout exists: ten forward jumps that need an
    EXTENDED_ARG one after the other (C15 and C58 give the sufficient number).
14. (P, C36) `infer_flags` drops CO_FUTURE_ANNOTATIONS; `has_free` of ConcreteBytecode uses `and`; on a CFG with try markers
    `infer_flags` raises AttributeError.
15. (P, C29-C33) `compute_stacksize`: the visited set ignores the smallest depth and the current try region; two TryBegin
    with the same target and different push_lasti are not analysed again; before 3.11 a block is not analysed again for a
    smaller depth (missed underflow); loops that lose elements are not followed; an empty next_block is not followed; a
    TryEnd only in dead code leaves the depth 32768; the initial element of a generator (3.10-3.12) is not counted in
    the result.
16. (P, C13) `ControlFlowGraph.legalize` and `Bytecode.legalize` give different lines in a block entered by a jump.
17. (P, C24) `del cfg[-1]` corrupts the index; (P, C25) `split_block` does not set next_block of the new block, and loses
    code when the tail is malformed.
18. (P, C28) `get_dead_blocks` ignores fall-through.
19. (P, C37, C39) Bytecode equality ignores the attributes and the depths; ConcreteBytecode equality compares neither the
    instructions nor the exception table.
20. (P, C38) copies and slices share argnames, consts, names, varnames; comparing BasicBlocks that hold a TryBegin raises.
21. (P, C41) an instruction on line 0 without columns makes `from_code` raise ValueError.
22. (P, C43/C47) pre/post tables omit opcodes, so underflows are missed; names misspelt (LOAD_INTRISIC_1/2).
23. (P, C46) `from_bytecode` drops the depth of the pieces of a split region; `to_bytecode` fusing three pieces takes the
    minimum of the last two.
24. (P, C49) positional-only parameters are counted twice in argnames.
25. SetLineno elements of a ConcreteBytecode are ignored by `to_code` from 3.11 on. `ControlFlowGraph.to_code(stacksize=n)`
    never computes the depths of handlers. The constructor of Bytecode accepts nested TryBegin, only iteration rejects it
    (P, C40).
26. (P, C53) `==` on graphs ignores the limits of blocks, their `next_block` and all code after the first jump or final
    instruction of a block, so graphs of different loops compare equal; comparing writes the depths of handlers.
27. (P, C56) `to_bytecode` joining three pieces of a region keeps the minimum of the depths of the last two: with two dead
    pieces after a live one, `to_code` writes depth 32768 for the handler of the live one.
28. (P, C57) `format_bytecode` (and `dump_bytecode`) raises AttributeError on any bytecode holding a SetLineno; a depth that is
    not set is shown as 0; an instruction without location is shown on line 0; a `next_block` outside the graph raises KeyError.
29. (P, C60) `from_bytecode` gives depth UNSET to the later pieces of a region it cuts, and `to_bytecode` joins them with
    `min(depth, UNSET)`: a Bytecode whose handlers have depths (e.g. from `from_code`) that is taken to a graph and back without
    stack analysis loses depths, or `to_bytecode` raises AssertionError.
30. (P, C61) a conditional jump from inside a try region back to code before another region, not met yet by the analysis, is
    followed as if it did not leave the first region: `compute_stacksize` and `to_code` raise AssertionError on valid code.

31. (P, C66) when the first instruction of a try region needs an EXTENDED_ARG, `to_code` starts the region between the
    EXTENDED_ARG and the opcode; CPython handles it, but `from_code` on that code object puts TryBegin just before TryEnd: the
    handler protects nothing any more, and a second `to_code` writes a function without it.
32. (P, C67) `is_cond_jump()` is False for FOR_ITER and SEND, which either jump or go on (the library does not use it itself).
33. (P, C69) For some code objects of CPython 3.11 (`return f()` in a `try` with two nested `finally`) `from_code(code).to_code()` changes the depths of the exception table and the stack size: CPython records that the handler drops the value to return (depth 0), the library records the smallest depth met in the region (1) (`C69_any_code_statement_false`). Running such code leaves one more value on the stack, which nothing uses.
34. (P, C28, C85) `for b in cfg.get_dead_blocks(): del cfg[b]` deletes blocks reached by fall-through; `compute_stacksize` and `to_code` then raise KeyError (`C85_dead_blocks_false`).
