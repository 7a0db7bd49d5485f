{"id": "C01", "title": "clog2 is the exact ceiling of log2", "statement": "For every positive integer n the width helper exposed to Lua as clog2 returns the smallest k with n <= 2^k, so a k-bit value addresses every element of a table of n entries and no smaller width does. For n <= 0 it returns -1.", "quantifier": "all integers n", "why_tests_cant": "The range of n is unbounded; a test only samples a handful of sizes around powers of two.", "anchors": ["src/Utils.cpp: justHigherPow2", "src/LuaPreProcessor.cpp: lua_clog2", "src/Algorithm.cpp: gatherDeclarationMemory"]}
{"id": "C02", "title": "State and caller registers are wide enough", "statement": "For every algorithm, the register declared for the state index can hold every state index the algorithm may be in, distinct states have distinct encodings (binary and one-hot), and the register declared for the subroutine caller identifier can hold every caller identifier.", "quantifier": "all numbers of states, all numbers of call sites, both encodings", "why_tests_cant": "The number of states of a design is unbounded and the interesting failures sit at powers of two or at machine integer limits.", "anchors": ["src/Algorithm.cpp: width", "src/Algorithm.cpp: stateWidth", "src/Algorithm.cpp: toFSMState", "src/Algorithm.cpp: writeFlipFlopDeclarations", "src/Algorithm.cpp: maxState"]}
{"id": "C03", "title": "Bitfield members tile the packed word", "statement": "For every bitfield declaration, every bit of the packed word belongs to exactly one member, the first declared member holds the most significant bits, and the offsets and widths used by member accesses are those of this layout.", "quantifier": "all bitfield declarations (any number of members, any widths)", "why_tests_cant": "Holds for arbitrary lists of members; a test fixes a few layouts.", "anchors": ["src/Algorithm.cpp: bitfieldWidth", "src/Algorithm.cpp: bitfieldMemberTypeAndOffset", "src/Algorithm.cpp: writeBitfieldAccess"]}
{"id": "C04", "title": "Bitfield initialisers round-trip through member accesses", "statement": "For every bitfield initialiser accepted by the compiler whose values fit their members, reading any member of the initialised word returns exactly the value given for that member, whatever the order in which members are named in the initialiser; an initialiser which omits a member or names an unknown one is rejected.", "quantifier": "all bitfields, all initialisers, all values", "why_tests_cant": "Quantifies over arbitrary layouts, value assignments and naming orders.", "anchors": ["src/Algorithm.cpp: gatherBitfieldValue", "src/Algorithm.cpp: bitfieldMemberTypeAndOffset"]}
{"id": "C05", "title": "Bit-wise bound variables take each bit from the right output", "statement": "When a variable is driven by parts of instance outputs, every bit of the variable reads the corresponding bit of the one output range covering it, bits covered by no range read as 0, and any bit covered by two ranges is an error.", "quantifier": "all variable widths, all lists of bound ranges, all bit positions", "why_tests_cant": "Combinatorial space of overlapping ranges is unbounded.", "anchors": ["src/Algorithm.cpp: rewriteBinding", "src/Algorithm.cpp: splitBitBindings", "src/Algorithm.cpp: determineBlueprintBoundVIO"]}
{"id": "C06", "title": "Operator widths never lose a carry", "statement": "For operands of one signedness and of known widths, the width the linter assigns to an expression a op b is sufficient: for every operand value representable at the operand widths, the mathematical result of +, * and comparisons (and of - on signed operands) is representable at the assigned width and signedness, and this carries over to expressions nested at any depth.", "quantifier": "all operators, all operand widths and signs, all operand values", "why_tests_cant": "Unbounded widths and values.", "anchors": ["src/ExpressionLinter.cpp: checkAndApplyOperator", "src/ExpressionLinter.cpp: checkAndApplyUnaryOperator", "src/ExpressionLinter.cpp: base_type_of"]}
{"id": "C07", "title": "Concatenation and replication widths", "statement": "The width the linter assigns to {a,b,...} is the sum of the widths of the parts and to {N{a,b,...}} N times that sum.", "quantifier": "all concatenations and replication counts", "why_tests_cant": "Arbitrary nesting, counts and widths.", "anchors": ["src/ExpressionLinter.cpp: typeNfo", "src/ExpressionLinter.cpp: checkConcatenation"]}
{"id": "C08", "title": "Sized number literals keep width, base, sign and digits", "statement": "Every sized literal accepted by the compiler is written to Verilog with the same sign, width, base and digits, i.e. decoding the emitted text gives the same number as decoding the source text, the emitted text has a single reading, and constants inlined in place of variables keep their value.", "quantifier": "all literal texts", "why_tests_cant": "Unbounded set of strings.", "anchors": ["src/Algorithm.cpp: rewriteNumber", "src/TypesAndConsts.cpp: splitNumber", "src/TypesAndConsts.cpp: isNumber"]}
{"id": "C09", "title": "Table initialisers match the declared size", "statement": "For every table declaration with an initialiser that is accepted, values keep their order and position, an auto-sized table has exactly as many entries as values, a padded table has exactly the declared number of values, the padding value fills exactly the missing entries, and an initialiser with too many (or, without padding, too few) values is rejected.", "quantifier": "all table sizes, initialiser lists, strings and padding directives", "why_tests_cant": "Unbounded sizes and lists.", "anchors": ["src/Algorithm.cpp: readInitList", "src/Algorithm.cpp: gatherTableNfo", "src/Algorithm.cpp: writeVarFlipFlopUpdate"]}
{"id": "C10", "title": "Automatic bindings get the direction of the port", "statement": "For every instance, an automatic binding ( <:> ) to an input becomes an inbound binding, to an output an outbound binding and to an inout a bidirectional one; the registered variant ( <::> ) stays registered on inputs; explicit bindings are kept unchanged and in order; bindings to unknown ports produce no connection.", "quantifier": "all instanced units and all binding lists", "why_tests_cant": "Arbitrary binding lists and port sets.", "anchors": ["src/Algorithm.cpp: resolveInstancedBlueprintBindingDirections"]}
{"id": "C11", "title": "Auto-bind never overrides an explicit binding and binds each port at most once", "statement": "With auto-bind enabled, a port which is explicitly bound keeps its binding and gets no other; every unbound port having a same-named identifier of matching kind in the host is bound with the direction of the port; no port receives two bindings from auto-bind.", "quantifier": "all instances, all port sets, all host scopes", "why_tests_cant": "Arbitrary combinations of ports, host identifiers and explicit bindings.", "anchors": ["src/Algorithm.cpp: autobindInstancedBlueprint"]}
{"id": "C12", "title": "Accepted bindings are well directed", "statement": "If binding checks pass for an instance then every inbound binding targets an input, every outbound binding an output, every bidirectional binding an inout, every right side is a known identifier, and no host variable is both driven by and feeding the same instance through explicit bindings (inouts excepted).", "quantifier": "all binding lists and environments", "why_tests_cant": "Arbitrary lists of bindings.", "anchors": ["src/Algorithm.cpp: checkBlueprintsBindings"]}
{"id": "C13", "title": "No two declarations of one scope share a name", "statement": "After any sequence of accepted declarations (variables, tables, memories, instances, subroutines, inputs, outputs, inouts), each name denotes exactly one object, and a declaration reusing a visible name is refused.", "quantifier": "all declaration sequences", "why_tests_cant": "Histories are unbounded.", "anchors": ["src/Algorithm.cpp: isIdentifierAvailable", "src/Algorithm.cpp: insertVar", "src/Algorithm.cpp: addVar", "src/Algorithm.cpp: gatherDeclarationMemory", "src/Algorithm.cpp: gatherDeclarationInstance"]}
{"id": "C14", "title": "Call arguments are matched to parameters in order, groups expanded", "statement": "A list of call arguments is accepted for a parameter list exactly when it can be consumed left to right, each plain argument matching one parameter and each group argument matching the longest run of parameters named after its members; on success every parameter is matched with exactly one argument, in order.", "quantifier": "all parameter lists and argument lists, all group contents", "why_tests_cant": "Arbitrary lists and groupings.", "anchors": ["src/Algorithm.cpp: matchCallParams", "src/Algorithm.cpp: parseCallParams", "src/Algorithm.cpp: getCallParams"]}
{"id": "C15", "title": "Include processing terminates, rejects exactly the cycles and inlines diamonds", "statement": "For every set of source files known under finitely many names, processing includes terminates; it fails with a cyclic include error exactly when a file (transitively) includes itself along the include path being processed, or with a missing file error, and otherwise the result is the textual expansion of the include tree, a file included from several places appearing once per inclusion.", "quantifier": "all finite include graphs", "why_tests_cant": "Arbitrary graphs of files.", "anchors": ["src/LuaPreProcessor.cpp: assembleSource"]}
{"id": "C16", "title": "Reported source positions are the original ones", "statement": "Every line of the preprocessed text that was recorded as coming from line l of file f is reported in error messages as line l of file f, through both preprocessing stages; negative positions give no location.", "quantifier": "all recorded line maps and all lines", "why_tests_cant": "Arbitrary file sizes and include structures.", "anchors": ["src/LuaPreProcessor.cpp: lineAfterToFileAndLineBefore_search", "src/LuaPreProcessor.cpp: lineAfterToFileAndLineBefore", "src/LuaPreProcessor.cpp: assembleSource"]}
{"id": "C17", "title": "Lua branch tracking considers exactly the first side of if blocks", "statement": "While skipping over preprocessor lines, nested units are looked for exactly in code that is in the first branch of every enclosing if: the tracker's state after any sequence of if/for/while/function/else/elseif/end lines equals the nesting structure, an unmatched end or else is an error.", "quantifier": "all sequences of preprocessor lines", "why_tests_cant": "Unbounded nesting depth and sequences.", "anchors": ["src/LuaPreProcessor.cpp: LuaCodePath", "src/LuaPreProcessor.cpp: jumpOverNestedBlocks"]}
{"id": "C18", "title": "State numbering is a bijection with the reachable states", "statement": "For every algorithm, the states reachable from the entry get pairwise distinct consecutive indices starting from 1 (0 being reserved for termination), every non-state block reachable belongs to the state it is executed in, and no unreachable block receives an index.", "quantifier": "all control-flow graphs", "why_tests_cant": "Arbitrary graphs, with cycles.", "anchors": ["src/Algorithm.cpp: renumberStates", "src/Algorithm.cpp: generateStates", "src/Algorithm.cpp: fsmGetBlocks"]}
{"id": "C19", "title": "Skipping empty states does not change behaviour", "statement": "Replacing a jump to an empty state by a jump to the first non-empty state following it preserves the sequence of executed instructions and the final state, for every control-flow graph without a cycle made of empty states only.", "quantifier": "all control-flow graphs, all entry points", "why_tests_cant": "Arbitrary graphs.", "anchors": ["src/Algorithm.cpp: fastForward", "src/Algorithm.cpp: blockIsEmpty", "src/Algorithm.cpp: fastForwardToFSMState"]}
{"id": "C20", "title": "Every reachable state is emitted exactly once", "statement": "In the generated case statement of an algorithm each reachable state has exactly one case entry, and every state index assigned to the next-state register has an entry.", "quantifier": "all control-flow graphs", "why_tests_cant": "Arbitrary graphs with sharing and cycles.", "anchors": ["src/Algorithm.cpp: writeCombinationalStates", "src/Algorithm.cpp: pushState", "src/Algorithm.cpp: writeStatelessBlockGraph"]}
{"id": "C21", "title": "Generated state machine follows the source control flow", "statement": "Cycle by cycle, the generated state machine executes the same instruction sequence and moves to the same next state as the source-level control flow (sequence, if/else, switch, while, goto, state boundaries, termination), for any data-dependent outcome of the conditions.", "quantifier": "all control-flow graphs, all condition outcomes, any number of cycles", "why_tests_cant": "All execution histories of all programs.", "anchors": ["src/Algorithm.cpp: writeStatelessBlockGraph", "src/Algorithm.cpp: writeCombinationalStates", "src/Algorithm.cpp: gatherWhile", "src/Algorithm.cpp: gatherIfElse", "src/Algorithm.cpp: preventIfElseCodeDup"]}
{"id": "C22", "title": "Subroutines return to their caller", "statement": "In every execution of an algorithm without recursive calls, a subroutine return continues at the return point of the call that started it, at any nesting depth, and caller bookkeeping of outer calls is preserved.", "quantifier": "all call graphs without recursion, all call histories of any length", "why_tests_cant": "Histories of nested calls are unbounded.", "anchors": ["src/Algorithm.cpp: analyzeSubroutineCalls", "src/Algorithm.cpp: writeStatelessBlockGraph", "src/Algorithm.cpp: writeFlipFlopDeclarations"]}
{"id": "C23", "title": "Pipelined variables carry the value of their own item", "statement": "In a pipeline, a variable written at one stage and read at a later stage is carried along stage by stage, so that the read at stage s sees the value computed by the writing stage for the same item (s minus w cycles earlier when nothing stalls), whatever is written for the following items.", "quantifier": "all pipelines, all stages, all streams of items, any number of cycles", "why_tests_cant": "Streams and depths are unbounded.", "anchors": ["src/Algorithm.cpp: gatherPipeline", "src/Algorithm.cpp: tricklingVIOName", "src/Algorithm.cpp: translateVIOName", "src/Algorithm.cpp: writeVarFlipFlopUpdate"]}
{"id": "C24", "title": "Pipeline stage ordering respects the special assignments", "statement": "When the compiler orders the stages of a pipeline, the order contains each stage exactly once, any stage writing a value backward (or forward) combinationally is evaluated before the stages reading it, and stages without constraints stay in natural order.", "quantifier": "all pipelines and all sets of special assignments", "why_tests_cant": "Arbitrary numbers of stages and constraints.", "anchors": ["src/Algorithm.cpp: orderPipelineStages", "src/Algorithm.cpp: writeStatelessPipeline"]}
{"id": "C25", "title": "Pipeline ordering fails exactly on cyclic constraints", "statement": "The compiler reports that a pipeline cannot be ordered if and only if the stage constraints contain a cycle.", "quantifier": "all pipelines and constraints", "why_tests_cant": "Both directions quantify over all graphs.", "anchors": ["src/Algorithm.cpp: orderPipelineStages"]}
{"id": "C26", "title": "Pipelines neither lose nor duplicate items", "statement": "In a pipeline whose stages are state machines, each item that finishes a stage starts the next stage exactly once and in order, whatever the stalls and stage durations: no item is lost, overwritten, duplicated or reordered.", "quantifier": "all numbers of stages, all stage durations, all stall histories, any number of cycles", "why_tests_cant": "Needs all schedules.", "anchors": ["src/Algorithm.cpp: writeAsModule (pipeline triggers)", "src/Algorithm.cpp: writeFlipFlopUpdates", "src/Algorithm.cpp: writeStatelessBlockGraph"]}
{"id": "C27", "title": "Conflicting writes in pipelines are rejected", "statement": "If a pipeline is accepted then no output is written from two stages, no variable is specially assigned ( ^= , v= , vv= ) from two stages or both specially and normally from one stage, and no variable is normally written after an earlier stage specially assigned it.", "quantifier": "all pipelines", "why_tests_cant": "All sets of per-stage writes.", "anchors": ["src/Algorithm.cpp: gatherPipeline"]}
{"id": "C28", "title": "Dependency tracking is the transitive closure", "statement": "After each instruction the recorded dependencies of every written variable are exactly those reachable through recorded direct dependencies, with the kind of access (current or previous value) accumulated; the computation terminates.", "quantifier": "all dependency maps", "why_tests_cant": "Arbitrary graphs including cycles.", "anchors": ["src/Algorithm.cpp: dependencyClosure", "src/Algorithm.cpp: updateAndCheckDependencies"]}
{"id": "C29", "title": "Combinational self-dependencies are detected", "statement": "For every straight-line sequence of assignments to whole variables, if the value a variable is given in a cycle depends (transitively) on a value it has already been given in the same cycle the compiler stops with an error; a sequence that gives each variable at most one value is accepted, whatever values from the previous cycle it reads.", "quantifier": "all instruction sequences", "why_tests_cant": "Arbitrary sequences and dependency chains.", "anchors": ["src/Algorithm.cpp: updateAndCheckDependencies", "src/Algorithm.cpp: rewriteIdentifier"]}
{"id": "C30", "title": "A variable turned into a temporary is always written before it is read", "statement": "If the compiler decides that a variable needs no register (its previous-cycle value is never needed), then along every path through one cycle each read of the variable is preceded by a write in that same cycle.", "quantifier": "all control-flow structures within a cycle, all paths", "why_tests_cant": "All programs and all paths.", "anchors": ["src/Algorithm.cpp: combineUsageInto", "src/Algorithm.cpp: updateFFUsage", "src/Algorithm.cpp: rewriteIdentifier", "src/Algorithm.cpp: writeAsModule"]}
{"id": "C31", "title": "Inlining a stable variable preserves its value", "statement": "If the compiler replaces a variable by the expression assigned to it, then at every later read in the cycle the expression evaluates to the value that was assigned.", "quantifier": "all instruction sequences and all data", "why_tests_cant": "All programs and data.", "anchors": ["src/Algorithm.cpp: updateUsageStableInCycle", "src/Algorithm.cpp: couldBeADefine", "src/Algorithm.cpp: vioAsDefine", "src/Algorithm.cpp: updateAndCheckDependencies"]}
{"id": "C32", "title": "Variable classification is total and preserves required storage", "statement": "Each declared variable gets exactly one storage class; a variable that is read before being written in some cycle, or is a table that is written, is never classified as constant or temporary; never-written variables become constants, never-accessed ones are dropped.", "quantifier": "all access combinations", "why_tests_cant": "Conjunction over all access histories.", "anchors": ["src/Algorithm.cpp: determineUsage", "src/Algorithm.cpp: determineAccess"]}
{"id": "C33", "title": "Incoming reads of a state are found on every path", "statement": "If some path inside a state reads a variable before writing it, the compiler records the variable as needing its previous-cycle value.", "quantifier": "all intra-state control-flow graphs and all paths", "why_tests_cant": "All graphs, including joins of paths with different lengths.", "anchors": ["src/Algorithm.cpp: determineAccess"]}
{"id": "C34", "title": "Registers take their initial value on reset, and only then", "statement": "For every flip-flop variable with a reset-time initialiser the register is set to its initial value whenever reset is asserted (or, for a callable algorithm, while it is not running), and otherwise takes the value computed in the cycle; startup-initialised variables are never touched by reset.", "quantifier": "all variables, all reset and run histories", "why_tests_cant": "All histories.", "anchors": ["src/Algorithm.cpp: writeVarFlipFlopUpdate", "src/Algorithm.cpp: writeFlipFlopUpdates"]}
{"id": "C35", "title": "done is raised exactly when all work is finished", "statement": "The done signal of an algorithm is high exactly when its main state machine is in the termination state (and, for an algorithm that starts by itself, it is not still held by reset), all its pipelines' stages are idle and no item waits between stages: everything that entered a pipeline came out of it.", "quantifier": "all algorithms with any number of pipelines and stages, all machine states", "why_tests_cant": "Unbounded number of stages and states.", "anchors": ["src/Algorithm.cpp: writeAsModule"]}
{"id": "C36", "title": "Instantiation parameters have a fixed precedence", "statement": "When a unit is instantiated, the width, sign and initial value of each of its parameterised ports come from the explicit specialisation if given, otherwise from the bound variable; ports with a fixed type always use their declared type.", "quantifier": "all units, all bindings and specialisations", "why_tests_cant": "All combinations.", "anchors": ["src/Algorithm.cpp: makeBlueprintInstantiationContext", "src/Algorithm.cpp: addToInstantiationContext", "src/Blueprint.cpp: varBitRange", "src/Blueprint.cpp: varBitWidth"]}
{"id": "C37", "title": "sameas resolution terminates at a variable that is not sameas", "statement": "Resolving the type of a variable declared sameas another follows the chain to its first element that is not itself declared sameas; the resolution terminates for every acyclic chain.", "quantifier": "all chains of declarations", "why_tests_cant": "Chains have unbounded length.", "anchors": ["src/Algorithm.cpp: findSameAsRoot", "src/Algorithm.cpp: gatherTypeNfo"]}
{"id": "C38", "title": "Image and palette packing keeps each colour component", "statement": "For every pixel or palette entry and every component depth between 1 and 8, the packed value contains the top bits of each colour component in its own field and nothing else, so each component can be recovered.", "quantifier": "all colours, all component depths", "why_tests_cant": "All component values and depths.", "anchors": ["src/LuaPreProcessor.cpp: lua_write_image_in_table", "src/LuaPreProcessor.cpp: lua_write_palette_in_table"]}
{"id": "C39", "title": "RISC-V peripheral addresses select exactly one port", "statement": "For every accepted RISC-V unit, the address given to software for input/output k has bit k of the hardware select set and no other select bit, does not overlap the RAM, and fits in the declared address width.", "quantifier": "all memory sizes, all numbers of ports", "why_tests_cant": "Unbounded sizes.", "anchors": ["src/RISCVSynthesizer.cpp: generateCHeader", "src/RISCVSynthesizer.cpp: generateSiliceCode", "src/RISCVSynthesizer.cpp: memorySize"]}
{"id": "C40", "title": "A pin is never driven by two ports", "statement": "If the top module is accepted, no pin is given to two ports of the main unit.", "quantifier": "all port lists and pin groups", "why_tests_cant": "All combinations.", "anchors": ["src/SiliceCompiler.cpp: addTopModulePort", "src/SiliceCompiler.cpp: writeBody", "src/LuaPreProcessor.cpp: pinsUsedByIOPort"]}
{"id": "C41", "title": "Top module glue connects each bit of a port to its own pin in order", "statement": "The connection emitted for each port of the main unit lists the pins of the port from most to least significant, unused pins being connected to private wires, so bit i of the port is connected to exactly pin i of the group.", "quantifier": "all pin groups", "why_tests_cant": "All groups.", "anchors": ["src/SiliceCompiler.cpp: verilogMainGlue", "src/LuaPreProcessor.cpp: lua_pin_newindex", "src/LuaPreProcessor.cpp: pinsUsedByIOPort", "src/LuaPreProcessor.cpp: pinWidth"]}
{"id": "C42", "title": "Wire reads mark every variable they use", "statement": "A variable used (possibly through a chain of wires) by an expression the algorithm reads is considered read, even if it only appears in wire definitions; wires may not be written.", "quantifier": "all wire definition graphs", "why_tests_cant": "Arbitrary chains and sharing.", "anchors": ["src/Algorithm.cpp: determineAccessForWires", "src/Algorithm.cpp: determineAccess"]}
{"id": "C43", "title": "Formal modes are run without duplicates in the order bmc, tind, cover", "statement": "Whatever modes are requested and in which order, each requested mode is run once and modes run in the order bmc, tind, cover.", "quantifier": "all lists of modes", "why_tests_cant": "All lists.", "anchors": ["src/Algorithm.cpp: init", "src/SiliceCompiler.cpp: gatherUnitBody"]}
{"id": "C44", "title": "Bound parts stay within the bound variable and do not overlap", "statement": "If the bindings of outputs (and inouts) to parts of variables are accepted, each part has the width of the port, lies inside the variable and no two parts overlap.", "quantifier": "all sets of part bindings", "why_tests_cant": "All sets of ranges.", "anchors": ["src/Algorithm.cpp: determineBlueprintBoundVIO"]}
{"id": "C45", "title": "Template instantiation replaces every marker and nothing else", "statement": "Instantiating a Verilog template replaces every marker of a given key by its value and leaves the other text unchanged, independently of the order in which the keys are processed, as long as values contain no markers.", "quantifier": "all templates and replacement sets, all processing orders", "why_tests_cant": "All strings and orders.", "anchors": ["src/VerilogTemplate.cpp: fromString", "src/VerilogTemplate.cpp: load"]}
{"id": "C46", "title": "Parts of bitfields select the bits they name", "statement": "An accepted access to a member of a bitfield held in a wider expression, possibly followed by a part select, reads or writes only bits of that member.", "quantifier": "all bitfields, members, offsets and widths", "why_tests_cant": "All layouts.", "anchors": ["src/Algorithm.cpp: writeBitfieldAccess", "src/Algorithm.cpp: determineAccessConstBitRange", "src/Algorithm.cpp: determineBitfieldAccessTypeAndWidth"]}
{"id": "C47", "title": "Repeat blocks execute n times with index 0..n-1", "statement": "A repeat block of count n expands into exactly n copies executed in order, copy i seeing index i; outside of repeat blocks the index is undefined and nested repeats are rejected.", "quantifier": "all counts and bodies", "why_tests_cant": "Unbounded counts.", "anchors": ["src/Algorithm.cpp: gatherRepeatBlock"]}
{"id": "C48", "title": "Circuitry instantiation substitutes exactly the circuit ports", "statement": "When a circuitry is instantiated, each of its inputs and outputs is replaced by the identifier given at the instantiation, identifiers that are not ports are left unchanged, and nested instantiations compose the substitutions.", "quantifier": "all circuitries, all nestings", "why_tests_cant": "Arbitrary nesting.", "anchors": ["src/Algorithm.cpp: gatherCircuitryInst", "src/Algorithm.cpp: translateVIOName"]}
{"id": "C49", "title": "Reads within a cycle see the last value assigned, and registers carry values to the next cycle", "statement": "Whatever storage the compiler picks for each variable, every expression evaluated by the generated circuit in every cycle reads the values the source gives: the value last assigned in the cycle if there is one, else the value at the end of the previous cycle. What instances are given at the end of the cycle agrees as well.", "quantifier": "all programs made of assignments and conditionals, all states and always blocks, all inputs, any number of cycles", "why_tests_cant": "All programs and all execution histories.", "anchors": ["src/Algorithm.cpp: writeStatelessBlockGraph", "src/Algorithm.cpp: rewriteIdentifier", "src/Algorithm.cpp: updateFFUsage", "src/Algorithm.cpp: combineUsageInto", "src/Algorithm.cpp: writeAsModule", "src/Algorithm.cpp: writeFlipFlopUpdates"]}
{"id": "C50", "title": "Calling an instance and waiting for it runs it once from the start", "statement": "When an algorithm calls an instance and then waits for it, whatever the instance was doing before, the instance starts from its first state with its initial values, runs undisturbed, and the caller goes on in the cycle after it is found terminated, neither before nor later.", "quantifier": "all callees, all inputs, all states of the callee at the time of the call, all durations", "why_tests_cant": "Unbounded durations and arbitrary callee behaviour.", "anchors": ["src/Algorithm.cpp: writeAlgorithmCall", "src/Algorithm.cpp: gatherSyncExec", "src/Algorithm.cpp: gatherJoinExec", "src/Algorithm.cpp: writeCombinationalAlwaysPre", "src/Algorithm.cpp: fsmNextState", "src/Algorithm.cpp: writeVarFlipFlopUpdate"]}
{"id": "C51", "title": "Expressions given to circuitries are evaluated where they are written", "statement": "An expression given as input of a circuitry has, inside the circuitry, the value it has at the point of the instantiation: assignments made before it are taken into account, assignments made inside the circuitry are not.", "quantifier": "all expressions, all code before the instantiation, all circuitries", "why_tests_cant": "Unbounded code before the instantiation and unbounded expressions.", "anchors": ["src/Algorithm.cpp: gatherCircuitryInst", "src/Algorithm.cpp: getIdentifiers", "src/Algorithm.cpp: addTemporary", "src/Algorithm.cpp: temporaryName"]}
{"id": "C52", "title": "Each statement is executed in the clock cycle the cycle rules give", "statement": "For every program the generated hardware executes, in each clock cycle, exactly the instructions that the rules on cycles give, in that order: `++:` and loops end the cycle, code that fits does not, a cycle ends after a conditional of which a side takes several cycles, calls and waits take the cycles they are said to take. It reaches its idle state exactly when the program ends.", "quantifier": "all programs of structured statements with subroutines, all meanings of instructions and conditions, all interference of the rest of the design, any number of cycles", "why_tests_cant": "All programs and unbounded executions; timing depends on the interaction of state creation, skipping of empty states and renumbering.", "anchors": ["src/Algorithm.cpp: splitOrContinueBlock", "src/Algorithm.cpp: gatherWhile", "src/Algorithm.cpp: gatherIfElse", "src/Algorithm.cpp: gatherSwitchCase", "src/Algorithm.cpp: preventIfElseCodeDup", "src/Algorithm.cpp: fastForward", "src/Algorithm.cpp: generateStates", "learn-silice/Documentation.md: Execution flow and cycle utilization rules"]}
{"id": "C53", "title": "The generated hardware computes what the source says, cycle by cycle", "statement": "After any number of clock cycles, each variable kept in a register holds the value that the source gives it: in every cycle the inputs are taken, `always_before` is executed, then the statements that the rules on cycles give, then `always_after`; assignments are seen by all later statements. What outputs and bound instances see at the end of each cycle agrees as well, and the hardware is idle exactly when the program has ended. This holds from the first reset on, for any later resets and calls: a reset stops the algorithm and initialises its variables, an algorithm on autorun starts by itself, a call starts the others from their first statement.", "quantifier": "all programs of structured statements with subroutines, all expressions, always blocks, bindings, inputs and done signals, all initial values, all histories of the reset and run inputs, any content of registers at power-up, any number of cycles", "why_tests_cant": "All programs and unbounded executions; depends on state creation, state numbering, code generation and the storage of variables together.", "anchors": ["src/Algorithm.cpp: gather", "src/Algorithm.cpp: generateStates", "src/Algorithm.cpp: writeCombinationalStates", "src/Algorithm.cpp: writeStatelessBlockGraph", "src/Algorithm.cpp: rewriteIdentifier", "src/Algorithm.cpp: combineUsageInto", "src/Algorithm.cpp: writeAsModule", "src/Algorithm.cpp: writeFlipFlopUpdates"]}
{"id": "C54", "title": "Always blocks are executed entirely in every cycle", "statement": "In every clock cycle the statements of an always block are executed entirely and in order, after the assignments `x := e`, whatever the state of the algorithm; the state of the algorithm is not changed by them. An always block whose code takes more than one cycle is reported as an error.", "quantifier": "all statements of always blocks (assignments, conditionals, switches, at any depth), all meanings of instructions and conditions, all data", "why_tests_cant": "All programs and all data; the gathered graph of blocks, the check on it and the emission of code have to agree.", "anchors": ["src/Algorithm.cpp: gather", "src/Algorithm.cpp: gatherAlwaysAssigned", "src/Algorithm.cpp: isStateLessGraph", "src/Algorithm.cpp: writeCombinationalAlwaysPre", "src/Algorithm.cpp: writeStatelessBlockGraph"]}
{"id": "C55", "title": "Expressions keep their structure when written to Verilog", "statement": "The Verilog text written for an expression is read by Verilog as the same operators applied to the same operands: same grouping, no two tokens of the source become another token, no two different expressions are written with the same text.", "quantifier": "all expressions of the grammar (all operators, unary operators, conditionals, concatenations, replications, casts, table, bit field and part accesses, sized numbers), any nesting, all names", "why_tests_cant": "All expressions; the text is the concatenation of all tokens, so every pair of neighbouring tokens at any depth matters, and precedences of two languages have to agree.", "anchors": ["src/Algorithm.cpp: rewriteExpression", "src/Algorithm.cpp: rewriteIdentifier", "src/Algorithm.cpp: writeTableAccess", "src/Algorithm.cpp: writeBitfieldAccess", "src/Algorithm.cpp: writePartSelect", "antlr/silice.g4: expression_0"]}
{"id": "C56", "title": "What is read from a memory is what was last written there", "statement": "Reading an address of a block memory gives the value last written to that address before, through any port, or its initial value if there was none; under a write mask this holds for each bit. The value is available in the cycle after the one in which the address is given, one more cycle later for a delayed memory, and stays until the next clock edge of that port.", "quantifier": "all kinds of memories and all templates shipped, all sizes, widths and initialisers, all histories of accesses through both ports, all interleavings of two clocks, all configurations", "why_tests_cant": "Unbounded histories of accesses and all interleavings of the clocks.", "anchors": ["src/Algorithm.cpp: gatherDeclarationMemory", "src/Algorithm.cpp: prepareModuleMemoryTemplateReplacements", "src/Algorithm.cpp: writeModuleMemory", "frameworks/templates: bram_generic.v.in, bram_wmask_byte.v.in, brom_generic.v.in, dualport_bram_*.v.in, simple_dualport_bram_*.v.in", "src/Config.cpp: Config"]}
{"id": "C57", "title": "Combinational loops through instances and tracked expressions are reported", "statement": "In a unit that compiles, no value is computed from itself within a cycle: neither through assignments, nor through immediate outputs (output!) of instances, nor through tracked expressions. When only bindings are concerned, a unit is rejected only if its instances form such a loop.", "quantifier": "all units: any number of instances, bindings, tracked expressions, and any path through the code of a cycle", "why_tests_cant": "Loops of any length through any number of instances, and all paths in the code.", "anchors": ["src/Algorithm.cpp: updateAndCheckDependencies", "src/Algorithm.cpp: writeInstanciations (always_dependencies)", "src/Algorithm.cpp: writeWireAssignements", "src/Algorithm.cpp: findBindingRight", "src/Algorithm.cpp: isNotCallable"]}
{"id": "C58", "title": "Splitting code into pipeline stages only delays it", "statement": "An item that enters a pipeline gets, stage after stage and one cycle per stage, exactly what the code of the stages gives when it is run in sequence: a stage works on its own item's values, whatever the other items in flight. Variables assigned with ^= are seen by all other stages in the cycle, those assigned with v= by later stages in the cycle, those assigned with vv= only in the next cycle.", "quantifier": "all pipelines of always blocks (any number of stages, any code in stages), all orders of evaluation chosen by the compiler, all items, any number of cycles, any content of registers at power-up", "why_tests_cant": "Any number of stages and items in flight, unbounded executions; depends on copies, order of stages and sides of registers together.", "anchors": ["src/Algorithm.cpp: gatherPipeline", "src/Algorithm.cpp: writeStatelessPipeline", "src/Algorithm.cpp: orderPipelineStages", "src/Algorithm.cpp: translateVIOName", "src/Algorithm.cpp: writeFlipFlopUpdates", "src/Algorithm.cpp: rewriteIdentifier", "learn-silice/Documentation.md: Pipelines"]}
{"id": "C59", "title": "Ports have the timing they are declared with", "statement": "An instance sees a change of what is bound to its inputs in the same cycle with `<:` and with the dot syntax, and in the next cycle with `<::`, with <reginputs>, or if it can be called. A change of an output is seen outside in the same cycle if it is declared with `output!`, and in the next cycle if declared with `output`. `<::` is refused where it would have no effect. Latencies add up along a path through several units.", "quantifier": "all bindings, all storage classes of the bound variables, all hierarchies of units, all histories of inputs, resets and calls, all cycles", "why_tests_cant": "Holds in every cycle for every storage class the analysis chose; optimisations may remove the register that the timing relies on.", "anchors": ["src/Algorithm.cpp: rewriteIdentifier", "src/Algorithm.cpp: writeAsModule (output assignments, blueprint instantiations 2/2)", "src/Algorithm.cpp: analyzeInstancedBlueprintInputs", "src/Algorithm.cpp: createInstancedBlueprintInputOutputVars", "learn-silice/AlgoInOuts.md: Timings"]}
{"id": "C60", "title": "Generated modules and signals have names of their own", "statement": "No two modules of the generated Verilog have the same name, and no identifier is declared twice in one of them, whatever names the user gave to units, instances, memories, variables, ports and subroutines. Every module instantiated is written, and written once per place where it is used.", "quantifier": "all designs: hierarchies of any depth, all names of units, instances, memories, ports, variables, subroutines, state machines and imported modules", "why_tests_cant": "All names and hierarchies: names are glued with underscores, which user names may contain, so clashes depend on combinations of names chosen in different files.", "anchors": ["src/Algorithm.cpp: memoryModuleName", "src/Algorithm.cpp: makeBlueprintInstantiationContext", "src/Algorithm.cpp: writeAsModule", "src/Algorithm.cpp: writeFlipFlopDeclarations", "src/Algorithm.cpp: writeTempDeclarations", "src/Algorithm.cpp: writeWireDeclarations", "src/Algorithm.cpp: writeConstDeclarations", "src/Algorithm.h: moduleName", "src/SiliceCompiler.cpp: gatherBody, writeBody"]}
{"id": "C61", "title": "The preprocessor prints the source it was given", "statement": "The Lua program made from a source has one statement per line, in order: lines after $$ are taken over as they stand; for any other line the program prints the line with its comments removed, a space for every blank after a word or an insertion, strings unchanged, the value of e in place of each $e$, and the right line number. Reading a source always ends.", "quantifier": "every source made of words, blanks, comments, strings, insertions and Lua lines, of any length", "why_tests_cant": "Quotes, backslashes, dollars, stars and slashes have a meaning in Silice, in Lua or in both; which combinations of them survive depends on every neighbouring character.", "anchors": ["src/LuaPreProcessor.cpp: luaCodeSplit", "src/LuaPreProcessor.cpp: jumpOverComment", "src/LuaPreProcessor.cpp: jumpOverString", "src/LuaPreProcessor.cpp: luaProtectString"]}
{"id": "C62", "title": "Every unit becomes a function that prints it, and nothing of the source is lost", "statement": "The preprocessor cuts the source into the units and the text between them. The pieces put together are the source, units do not overlap, and cutting always ends. For each unit the Lua program has a function named after it that prints the unit, from its first word to its closing brace, and one that prints what stands between its parentheses; text around units is printed by the body of the program, in order, with the right line numbers. Brackets in comments, strings, insertions and in later branches of Lua conditionals do not matter.", "quantifier": "every source; for the second part every source made of units and text of any length, any nesting of brackets, any Lua blocks", "why_tests_cant": "Where a unit ends depends on every bracket, comment, string, escape and Lua line in it.", "anchors": ["src/LuaPreProcessor.cpp: decomposeSource", "src/LuaPreProcessor.cpp: jumpOverUnit", "src/LuaPreProcessor.cpp: jumpOverNestedBlocks", "src/LuaPreProcessor.cpp: LuaCodePath::update", "src/LuaPreProcessor.cpp: prepareCode", "src/LuaPreProcessor.cpp: nameToLua"]}
{"id": "C63", "title": "Accesses designate the bits that the source designates", "statement": "Entries of tables, members of bit fields, parts of words, members of groups and ports of instances can be combined in one access. An access is accepted exactly when what it names exists, an index is given to tables only, members lie within the word and parts have at least one bit. Reading it gives exactly the bits designated; assigning it changes exactly these bits, of the variable named, and no other bit of this or any other variable.", "quantifier": "all declarations, all accesses of any nesting (indices that are themselves accesses), all expressions, all sequences of assignments, all values, all storage classes", "why_tests_cant": "Offsets depend on all members declared after the one accessed, names are glued, and the register read depends on what was assigned before.", "anchors": ["src/Algorithm.cpp: writeAccess", "src/Algorithm.cpp: writePartSelect", "src/Algorithm.cpp: writeBitfieldAccess", "src/Algorithm.cpp: writeTableAccess", "src/Algorithm.cpp: writeIOAccess", "src/Algorithm.cpp: rewriteIdentifier", "src/Algorithm.cpp: determineAccessTypeAndWidth", "src/Algorithm.cpp: determineAccessedVar", "src/Algorithm.cpp: writeAssignement", "antlr/silice.g4: access"]}
{"id": "C64", "title": "A call passes the values of its arguments, a join stores the results", "statement": "Calling an algorithm instance or a subroutine with arguments gives each input the value that its argument has before the call, cut to the width of the input, and changes no other variable; called without arguments, an instance keeps its inputs. A join stores each output of the callee in the place that is given for it, and changes nothing else. Calls and joins are accepted exactly when the callee can be called, the numbers agree, no input is bound, arguments make sense and receivers can be assigned.", "quantifier": "all declarations, all callees with any number of inputs and outputs, all argument expressions and receivers (variables, members of groups, accesses of any nesting), all values, whatever was assigned before in the cycle", "why_tests_cant": "Depends on what was assigned before in the same cycle, on which arguments read which inputs, and on the storage class of every variable involved.", "anchors": ["src/Algorithm.cpp: writeAlgorithmCall", "src/Algorithm.cpp: writeAlgorithmReadback", "src/Algorithm.cpp: writeSubroutineCall", "src/Algorithm.cpp: writeSubroutineReadback", "src/Algorithm.cpp: parseCallParams"]}
{"id": "C65", "title": "Inouts are driven exactly where the source enables them", "statement": "A pin of an inout carries the value that the unit it belongs to has set as output where that unit has enabled the output, from the next clock edge on, and is otherwise not driven by the design, whatever number of units the inout passes through. Units read what the pin carries. The same holds when inouts are split into three ports.", "quantifier": "all inouts of any width, all hierarchies of instances of any depth, bindings to whole inouts and to parts of them, all contents of the registers", "why_tests_cant": "Which drivers a net has depends on all bindings in the hierarchy; two drivers show only in circuits, and only for some contents of the registers.", "anchors": ["src/Algorithm.cpp: writeAsModule", "src/Algorithm.cpp: writeInoutBinding", "src/Algorithm.cpp: determineBlueprintBoundVIO", "src/Algorithm.cpp: createInOutVars", "projects/inout/README.md"]}
{"id": "C66", "title": "A switch runs the case whose value the expression has", "statement": "A switch runs the block of the first case whose value is the number that the expression has, the default if there is none such, wherever it stands, and nothing otherwise; however values are written. A one-hot switch that is accepted runs the case of the bit that is set when only one bit is set, or the default, and there always is one.", "quantifier": "all expressions and variables of any width and sign, all values held, all lists of cases of any length, values written as numbers, sized numbers and bit fields", "why_tests_cant": "The value of one case changes the width and the sign in which all others are compared; the range of values is that of the variable.", "anchors": ["src/Algorithm.cpp: gatherSwitchCase", "src/Algorithm.cpp: gatherValue", "src/Algorithm.cpp: gatherConstValue", "src/Algorithm.cpp: writeStatelessBlockGraph", "antlr/silice.g4: switchCase", "learn-silice/Documentation.md: Switches"]}
{"id": "C67", "title": "Binding a group connects its members to the ports of the same name", "statement": "A unit that takes a group or an interface has one port for each member listed, of the kind listed and of the type that the member has. Binding a group to it connects each member that is listed with the port of its name, in the direction of the port, once, and connects nothing else. Ports of an interface take the types of the members bound to them, and a group that lacks a member of the interface is refused.", "quantifier": "all groups and interfaces with any number of members, all lists of ports, all other ports of the unit, all groups bound, registered or direct bindings", "why_tests_cant": "Ports are found by names glued from those of group and member, in every combination of groups; the order of members is that of a hash table.", "anchors": ["src/Algorithm.cpp: gatherIoGroup", "src/Algorithm.cpp: gatherIoInterface", "src/Algorithm.cpp: gatherIoDef", "src/Algorithm.cpp: getBindings", "src/Algorithm.cpp: resolveInstancedBlueprintBindingDirections", "src/Algorithm.cpp: makeBlueprintInstantiationContext", "learn-silice/Documentation.md: Groups"]}
{"id": "C68", "title": "An identifier denotes the declaration in scope", "statement": "Wherever an identifier is read or written it stands for the variable of the last declaration of it that comes before, in the same block or in one around it: declarations in blocks, branches, cases and loops hide those outside and end with the block, parameters are seen in their subroutine, and later stages of a pipeline see what earlier stages declare. Different declarations are different variables. Identifiers that are not declared around the use are refused.", "quantifier": "all algorithms and units: declarations, uses, labels, blocks, conditionals, switches, loops, pipelines and subroutines in any nesting and number", "why_tests_cant": "Which variable a name means depends on every enclosing block, and names are made by gluing, so that other names anywhere in the unit matter.", "anchors": ["src/Algorithm.cpp: addBlock", "src/Algorithm.cpp: addVar", "src/Algorithm.cpp: insertVar", "src/Algorithm.cpp: blockVIOName", "src/Algorithm.cpp: translateVIOName", "src/Algorithm.cpp: gatherBlock", "src/Algorithm.cpp: gatherSubroutine", "src/Algorithm.cpp: concatenatePipeline", "src/Algorithm.cpp: checkPermissions", "src/Algorithm.cpp: isIdentifierAvailable"]}
{"id": "C69", "title": "Variables have the value given in their declaration", "statement": "A variable declared with `= v` has the value v when the unit comes out of reset or is started, and each time the block it is declared in starts; one declared with `(v)` has it on configuration, and neither reset nor start changes it. The entries of a table have the values listed. The values last until the variable is assigned. Declarations without initialisation are refused.", "quantifier": "all declarations of variables and tables, all ways they are kept (register, temporary, constant), all programs that read, write and enter blocks depending on what is read, all histories of resets and starts, all contents of what is not initialised", "why_tests_cant": "Initial values are written in five places of the output depending on how a variable is used; a missing one shows only for some contents of the registers and some histories of resets.", "anchors": ["src/Algorithm.cpp: gatherVarNfo", "src/Algorithm.cpp: insertVar", "src/Algorithm.cpp: writeVarInits", "src/Algorithm.cpp: writeConstDeclarations", "src/Algorithm.cpp: writeFlipFlopDeclarations", "src/Algorithm.cpp: writeVarFlipFlopUpdate", "src/Algorithm.cpp: optimize", "src/Blueprint.cpp: varInitValue", "learn-silice/Documentation.md: Variables"]}
{"id": "C70", "title": "Clocks and resets reach what the source designates", "statement": "Every register, state machine, memory and instance of a unit runs on the clock, and is initialised by the reset, that the source designates: the ones given with `@` and `!` to the unit, to the instance or to the memory, and otherwise those of the unit around it, followed up to the top of the design. A clock or a reset that is bound to an input carries the one of the unit. No module lacks a reset that something in it needs.", "quantifier": "all hierarchies of units of any depth with any number of registers, memories, Verilog modules and processors, all modifiers and bindings, all values of all other signals at any time", "why_tests_cant": "Whether a module has a reset port depends on everything in it at any depth; a missing one shows as an unconnected wire, in circuits only.", "anchors": ["src/Algorithm.cpp: requiresReset", "src/Algorithm.cpp: writeFlipFlopUpdates", "src/Algorithm.cpp: rewriteIdentifier", "src/Algorithm.cpp: rewriteBinding", "src/Algorithm.cpp: gatherDeclarationInstance", "src/Algorithm.cpp: writeAsModule", "src/SiliceCompiler.cpp: gatherBody", "src/Module.h: requiresReset", "src/RISCVSynthesizer.h: requiresReset"]}
{"id": "C71", "title": "Formal checks check what they state", "statement": "What is written for #wasin, #assertstable, #assumestable, #stableinput, #assert, #assume, #restrict and #cover holds on an execution exactly when the check does: in every cycle after the first, outside of reset and calls, in which the machine is in the state where the check stands (always, if it is in no state), the expression is not zero, or has the value of the cycle before, or the machine was in the named state so many cycles before. The assumptions added for verification leave all executions in which the unit is reset first and called when it is not working.", "quantifier": "all algorithms with any number of states and checks, all numberings and encodings of states, all executions, all values before the first cycle, all ports", "why_tests_cant": "A check that is never tested passes all tests and all verifications; whether it is depends on where it stands and on how states are numbered.", "anchors": ["src/Algorithm.cpp: gatherPastCheck", "src/Algorithm.cpp: gatherStableCheck", "src/Algorithm.cpp: gatherStableinputCheck", "src/Algorithm.cpp: writeFlipFlopUpdates", "src/Algorithm.cpp: writeAssert", "src/Algorithm.cpp: writeAssume", "src/Algorithm.cpp: writeRestrict", "src/Algorithm.cpp: writeCover", "src/Algorithm.cpp: writeAsModule", "learn-silice/formal/README.md"]}
{"id": "C72", "title": "Expression trackers track their expressions", "statement": "A variable declared with <: has, wherever it is read, the value of its expression at that moment; one declared with <:: has the value its expression had at the end of the previous cycle. Trackers may use other trackers. <:: delays all operands except inputs, outputs of instances and <: trackers, and each such operand is warned about unless it is written with a colon.", "quantifier": "all units with any number of trackers in any order, all expressions, all code with assignments and conditionals, all values, all cycles", "why_tests_cant": "A tracker is a wire outside of the code that reads it: what is read depends on assignments made before and after the read and on how the circuit settles, for every order of assignments.", "anchors": ["src/Algorithm.cpp: gatherDeclarationWire", "src/Algorithm.cpp: writeWireAssignements", "src/Algorithm.cpp: rewriteIdentifier", "src/Algorithm.cpp: updateAndCheckDependencies", "src/ExpressionLinter.cpp: lintWireAssignment", "src/ExpressionLinter.cpp: allVars", "learn-silice/Documentation.md: Expression trackers"]}
{"id": "C73", "title": "Imported modules have the ports and parameters of their source, and names at the top are unique", "statement": "A Verilog module that is imported has the ports of its source in each direction, in order, with their numbers of bits, and an instance is given the declared parameters with the values given last or their defaults. Two declarations of one kind with the same name are refused. Every file appended, unit, processor and module is written to the output once, in order. Files are searched as given, then in the search paths.", "quantifier": "all headers of modules, all lists of parameters, all sequences of declarations, all search paths and sets of existing files", "why_tests_cant": "Widths, names and duplicates depend on the text of files the compiler did not produce; a wrong width is silently accepted and shows up only in synthesis.", "anchors": ["src/Module.h: gather", "src/Module.h: writeModule", "src/SiliceCompiler.cpp: gatherBody", "src/SiliceCompiler.cpp: findFile", "src/SiliceCompiler.cpp: writeBody", "src/Algorithm.cpp: gatherDeclarationInstance", "src/Algorithm.cpp: writeAsModule", "antlr/vmodule.g4"]}
{"id": "C74", "title": "Jumps go to their labels, and labels that are not jumped to have no effect", "statement": "A program with labels and goto carries out the instructions in the order of its text, except that goto continues, in the next cycle, after its label, wherever that stands: before or after, in conditionals, blocks and loops or out of them. A label starts a cycle exactly when some goto names it; removing a label that none names changes nothing. Programs are accepted exactly when no label is given twice, all gotos have a label, and each break is in a loop.", "quantifier": "all programs of instructions, steps, labels, jumps, blocks, conditionals, loops and breaks in any nesting and number, all instructions and conditions, all data, executions of any length", "why_tests_cant": "A jump connects any two points of a program, and is resolved after everything else has been gathered; what is wrong with one shows only on the paths through it.", "anchors": ["src/Algorithm.cpp: gatherJump", "src/Algorithm.cpp: resolveForwardJumpRefs", "src/Algorithm.cpp: addBlock", "src/Algorithm.cpp: splitOrContinueBlock", "src/Algorithm.cpp: gatherWhile", "src/Algorithm.cpp: gatherBreakLoop", "src/Algorithm.cpp: gatherIfElse", "src/Algorithm.cpp: gatherIfThen", "src/Algorithm.cpp: isStateLessGraph", "learn-silice/Documentation.md: Control flow"]}
{"id": "C75", "title": "return ends the algorithm it is in", "statement": "When a return outside of subroutines is carried out, the algorithm has ended at the end of the cycle, as after its last statement; a return in an algorithm that has no state machine is refused.", "quantifier": "all algorithms and subroutines of the programs of C21 with return at any place and in any number, all instructions, conditions and data, any number of cycles", "why_tests_cant": "Whether a return has an effect depends on everything that is written after it for the same cycle, on each path through the conditionals, loops and switches around it.", "anchors": ["src/Algorithm.cpp: gatherReturnFrom", "src/Algorithm.cpp: writeBlock", "src/Algorithm.cpp: writeStatelessBlockGraph", "tests/return_in_algorithm.si"]}
{"id": "C76", "title": "Subroutines access only what they were given", "statement": "A subroutine reads only variables given with reads or readwrites (with the members of groups), its parameters and variables, and the outputs of what it may call; it writes only those given with writes or readwrites, its outputs and variables, and the inputs of what it may call. Any other access or call is reported, and nothing else is.", "quantifier": "all subroutines, lists of parameters, groups and calls, all programs of C21, all runs of any length, all accesses of instructions and conditions", "why_tests_cant": "An access may stand anywhere in the text of a subroutine; one that is not checked is silently accepted.", "anchors": ["src/Algorithm.cpp: gatherSubroutine", "src/Algorithm.cpp: addVar", "src/Algorithm.cpp: gatherSyncExec", "src/Algorithm.cpp: checkPermissions", "learn-silice/Documentation.md: Subroutines"]}
{"id": "C77", "title": "Types say how many bits there are, and widthof says the same", "statement": "A variable or port of type intN or uintN is a Verilog signal of N bits with that sign; an auto port is one of the width and sign of what is bound to it; and widthof of it is that number of bits, in expressions, in constants and in the preprocessor, as signed is its sign.", "quantifier": "all types, all variables and ports, all widths, all instances and bindings, all contexts", "why_tests_cant": "Widths are passed around as texts, from the type to ranges, contexts of instances and the preprocessor; being off by one or by a context shows only for the widths and nestings tried.", "anchors": ["src/TypesAndConsts.cpp: splitType", "src/Blueprint.cpp: varBitRange", "src/Blueprint.cpp: varBitWidth", "src/Blueprint.cpp: varType", "src/Algorithm.cpp: resolveWidthOf", "src/Algorithm.cpp: rewriteExpression", "src/Algorithm.cpp: gatherConstValue", "src/Algorithm.cpp: writeVerilogDeclaration", "src/LuaPreProcessor.cpp: lua_widthof", "src/LuaPreProcessor.cpp: lua_signed"]}
{"id": "C78", "title": "Doubtful expressions and assignments are reported", "statement": "Comparisons of signed with unsigned operands, unsigned shifts of signed values, choices between values of different widths or signs and concatenations of mixed signs are reported wherever they occur in the program, and only then. An assignment, a parameter or a result about which nothing is reported keeps its value. Assigning an expression tracker is an error.", "quantifier": "All expressions at any depth, all types of operands and values they hold, all programs, and all cycles of all runs of what is generated for them.", "why_tests_cant": "A test checks some expressions at some places of a program; whether a place is checked depends on how the program is cut into states, and values lost by an assignment show for some values only.", "anchors": ["src/ExpressionLinter.cpp: lint, lintAssignment, lintWireAssignment, lintInputParameter, lintReadback, checkConcatenation, checkTernary, checkAndApplyOperator, typeNfo", "src/ExpressionLinter.h: m_WarnAssignWidth", "src/Algorithm.cpp: checkExpressions", "src/Algorithm.cpp: lint", "src/Algorithm.cpp: gatherBlock", "src/Algorithm.cpp: writeBlock"]}
{"id": "C79", "title": "Delayed assignments give the value of the cycle before", "statement": "In every cycle x ::= e gives x the value that e had at the same place in the previous cycle, and x := e the value it has now, in any mix of such statements and whatever the rest of the unit does; in the first cycle x gets what the register of the delay holds. Delays at different places do not interfere, and statements that assign different variables are never refused.", "quantifier": "All lists of always assignments with any expressions, all behaviours of the rest of the unit, all initial values and all cycles.", "why_tests_cant": "The two statements written for a delayed assignment exchange the order of the write and of the reads; whether this shows depends on which statements stand before and on values over several cycles.", "anchors": ["src/Algorithm.cpp: gatherAlwaysAssigned", "src/Algorithm.cpp: delayedName", "src/Algorithm.cpp: determineVIOAccess", "src/Algorithm.cpp: writeBlock", "src/Algorithm.cpp: updateAndCheckDependencies", "src/Algorithm.cpp: determineUsage"]}
{"id": "C80", "title": "Pipelines start when the code comes to them", "statement": "In an algorithm, a pipeline written in a state starts in exactly the cycles where the flow of the code of that state, given the values of its tests in the cycle, comes to the pipeline: those in branches, cases or loop bodies that are not taken do not start, and no other is kept from starting.", "quantifier": "All nestings of conditionals, switches and loops with pipelines anywhere in them, all values of the tests.", "why_tests_cant": "Whether a pipeline starts depends on flags set and cleared by text written for other branches, as found by a search through the code; each nesting and each combination of tests is another case.", "anchors": ["src/Algorithm.cpp: findAllStartingPipelines", "src/Algorithm.cpp: disableStartingPipelines", "src/Algorithm.cpp: writeStatelessBlockGraph", "src/Algorithm.cpp: emptyUntilNextStates", "src/Algorithm.cpp: isStateLessGraph", "src/Algorithm.cpp: preventIfElseCodeDup"]}
{"id": "C81", "title": "A pipeline stage is done with its data before it takes the next", "statement": "A stage of a pipeline whose code takes several cycles goes from state to state as its code says until it comes to the end of the stage; only then does it take the data of the previous stage, even if that data is waiting earlier. No cycle is added to stages whose last state does not go back into the stage.", "quantifier": "All codes of the last state of a stage, with any nesting of conditionals, switches and loops; all values of the tests; data waiting or not.", "why_tests_cant": "The stage takes new data in whatever state is the last one, decided once from the shape of the code; that no flow goes back from there concerns all shapes and all values of the tests.", "anchors": ["src/Algorithm.cpp: padPipeline", "src/Algorithm.cpp: findNextStates", "src/Algorithm.cpp: generateStates", "src/Algorithm.cpp: lastPipelineStageState", "src/Algorithm.cpp: writeAsModule"]}
