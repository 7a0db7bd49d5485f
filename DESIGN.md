# Formal model of the Silice compiler in Lean 4

## Trusted base

* Lean 4.33.0 kernel (and the elaborator only in so far as statements read as intended).
* Axioms: only `propext`, `Classical.choice`, `Quot.sound` (Lean/Mathlib standard ones). No own axioms,
  no `sorry`, no `native_decide`, no `bv_decide`. `Verif/Audit.lean` prints the axioms of every property theorem.
* The hand translation of the C++ sources into the definitions of `lean/Verif/Model/*.lean`. Each definition
  cites the file and lines it models, and says what was simplified.

## What is modelled, and what is not

Modelled: the decision logic and the analyses of the compiler (widths, layouts, bindings, state machine
construction and emission, subroutines, pipelines, access / dependency / usage analysis, preprocessor line
bookkeeping) and, where the property talks about generated hardware, the meaning of the generated Verilog
restricted to the constructs involved (a register is updated at the clock edge, a blocking assignment takes
effect immediately, a `case` picks its entry).

Not modelled: ANTLR parsing, the Lua interpreter, the file system (an abstract finite map stands for it), the
Verilog semantics beyond the fragment above, console output, the frameworks and libraries written in
Silice/Verilog, the Python frontend, memory exhaustion and C++ integer overflow except where a
definition says so.

## Layout

* `Verif/Model/X.lean`  code model (each definition cites /repo lines)
* `Verif/Spec/X.lean`   independent specification, when it is more than a line
* `Verif/Lemmas/X.lean` helper lemmas
* `Verif/Props/X.lean`  property theorems, non-vacuity examples, counterexamples
* `MANIFEST.json`       property -> theorems
* `seeded/LOG.jsonl`    mutation log

## Properties: what is modelled and how it is proved

* C01 `justHigherPow2` as the fuel-free loop on `n/2`; strong induction on n; spec: least k with n <= 2^k.
* C02 `width` loop, `stateWidth`, `toFSMState` (with 32-bit `int` wrap made explicit as `none`), state register
  declaration; fits + injectivity.
* C03, C04 bitfield layout on lists of (name,width); packed words as `Nat`/bit functions; induction on the list.
* C05 `rewriteBinding` as list of bit sources or error; characterised per bit.
* C06 linter operator typing; value ranges of signed/unsigned integers of a width; inequality proofs over Int.
* C07 linter typing of concatenation/replication. The code computes the replicated width then overwrites it:
  negation with witness plus partial theorem.
* C08 literals as character lists, recogniser written out for the regular expressions; round trip.
* C09 `readInitList` on value lists; outcome as `Except`; negation for reset code reading missing entries.
* C10, C11, C12 binding lists against an abstract port environment; list induction; decision logic outright.
* C13 declaration state as sets of names; invariant by induction on declaration sequences.
* C14 `matchCallParams` as a two-index loop; refinement to a relational (inductive) matching spec.
* C15 include expansion on a finite map of files; well-founded on the set of not-yet-included files.
* C16 binary search on a sorted line map; exact match; composition of both stages.
* C17 stack of booleans against a structural nesting spec.
* C18, C20 breadth first numbering and emission on finite graphs; invariants of the worklist loop.
* C19 `fastForward` with termination by absence of empty cycles; simulation.
* C21 block graph semantics (reference) vs emitted nested code per state; simulation for any number of cycles.
  From statements: `gather` modelled on structured programs (Model/Gather), the shape of the blocks by induction on the statements (Frag), and
  `generateStates` run on the result; every such graph is well formed (C21_programs).
* C52 rules on cycles as an abstract machine on statements with a stack of continuations (Spec/GatherTime), no blocks or states; simulation with the
  block graph (empty states gone through rather than skipped, states that make no difference added: Lemmas/FsmTime), then with the hardware by C21.
  Restricted to programs without code after `break` or `return` (counterexample otherwise). Two documented rules are false in general.
* C53 all of the above for one algorithm (Model/Whole): statements, states, code of the states, storage of variables, registers; the source is the
  rules of C52 with assignments (Spec/Whole). Composition of C52, C21, C30 and C49; partial with the restrictions of C30. With the always blocks
  of the source (Model/WholeUnit, Spec/WholeUnit) the storage is the one of C32/C33 on the three graphs, no assumption on temporaries
  other than that they are not assigned in part. Under reset and calls (Model/WholeRun, Spec/WholeRun): any history of the reset signal and of the run
  input from any power-up content; the history is cut at each reset and each start, with the result for a running or a stopped algorithm in between.
* C54 gathering of always blocks from a block outside all state machines, the check that they take one cycle, and their code (Model/Always); induction
  on the gathered graph. Accepted exactly when the statements fit in one cycle. Negations for the older syntax (no check, several always blocks). Not
  modelled: an always block inside an always block, `return` and `goto` in always blocks (the compiler follows a null pointer).
* C55 the text of expressions as characters (Model/ExprText, with the grammar of expressions), read back by a reader of Verilog expressions: longest
  token first, then precedence (Spec/ExprText, from the tables of the standard). Induction on the grammar. Partial: `rewriteExpression` puts nothing
  between tokens, so that neighbouring operators can merge; counterexamples for all such pairs, for chains of `? :` and for nested replications.
* C56 declaration of memories, widths of their members from the configuration, and the `always` blocks of all the templates as lists of
  non-blocking assignments (Model/Memory). Specification: last store in a history of clock edges (Spec/Memory). Induction on the history. Partial: with
  a write mask the enables have to be configured as wide as the data, itself a multiple of the grain.
* C57 dependencies recorded for instances and tracked expressions, checks made at each assignment (Model/Loops, on top of Model/Deps). Specification:
  graph of the values of a cycle (Spec/Loops). Invariant of the walk: the map has all outputs a variable depends on; a cycle would be
  closed by some last step, which is then rejected. Exact for bindings alone; nothing more than C29 for instances without immediate outputs. Consequence
  (Spec/Settle, Props/Settle): in an accepted unit the values of a cycle are determined, and updates in any fair order from any values reach them.
  Partial: see the findings, conditionals as in C29, tests of conditionals not followed.
* C58 pipelines of always blocks from the code of their stages: names rewritten to copies, what counts as assigned in each stage, capture, order,
  update of the copies (Model/PipeCode, on top of Model/PipeOrder and Model/Usage). Specification: values at the start and end of each stage in each
  cycle, and the stages run one after the other (Spec/PipeCode). Induction on the order of evaluation, then on the stages. Partial: no pipeline in a
  conditional or in a stage, storage of copies given, a variable assigned by several stages is read by the last of them or later.
* C59 signals written for inputs of instances and for outputs, on the storage chosen by C30/C32/C33; values over time from C53 (`C59_algorithm_partial`);
  designs of several units: every connection gives what the documentation says; latency of rows of units by induction.
* C60 names of modules over the tree of instances, names declared in one module; distinct under syntactic conditions on user names, with clashes as
  counterexamples; imports of Verilog modules. Conditions are not checked by the compiler, hence partial.
* C61 `luaCodeSplit` on characters, and how Lua reads the text it is given; for sources made of words, blanks, comments, strings, insertions and Lua lines the program
  prints the lines of the source. What strings and comments must avoid is the hypothesis; sources outside it are counterexamples. `LibSL::BasicParser` is not in the
  repository: what is assumed of it is at the head of Model/LuaText.lean, and whether `readString` skips blanks is left open.
* C62 `decomposeSource` and `prepareCode` on characters. Order and completeness of the pieces for every source; for sources built of units and text, the program is
  the expected one. Brackets are counted on the first branches of Lua blocks (as in C17) and have to be nested there.
* C63 the writers of accesses produce trees of Verilog references; source and Verilog have separate meanings (bits designated). Acceptance is characterised; values and
  assignments agree, for any nesting and any sequence, by induction on expressions and code. The text of the references is C55; how variables become macros is C31.
* C64 `writeAlgorithmCall`, `writeAlgorithmReadback`, `writeSubroutineCall`, `writeSubroutineReadback` after parameters are matched (C14), over the references and
  memories of C63. Source: all arguments are evaluated, then stored; all places are determined, then results stored. Receivers that are macros are left out.
* C65 what is written for inouts used in a unit and for bound inouts, and the connections of ports of instances, with and without split inouts. Specification: the hierarchy as a
  tree, the unit each bit belongs to, drivers of nets resolved as in Verilog. Proof by induction over the hierarchy.
* C66 values of cases as gathered and written, the comparison rules of a Verilog case statement (widths and signs), one-hot switches with their attributes. Specification: numbers.
  Proof by arithmetic, and by counting for one-hot switches. What the blocks do is C21, C53.
* C67 ports made from groups and interfaces, bindings of groups unfolded into bindings of members; directions and types are resolved as in C10 and C36. Specification: what the
  unit says of each member. Proof by induction over lists, for any order in which a hash table gives the members.
* C68 making blocks and variables while gathering, translation of identifiers and the check of scopes; blocks copy the translations of their parents, a declaration adds one.
  Specification: an environment of declarations that follows the nesting of the source. Proof: what the compiler's current block translates agrees with the environment, by induction
  over statements; blocks left behind no longer change. Not modelled: circuitries, repeat blocks, groups, forward declarations of subroutines.
* C69 initial values: what declarations give, where they are written (constants, registers, start of blocks, clock edges). The text of a cycle is any program that reads, writes and
  enters blocks according to what it reads; simulation between a store of known values and registers, temporaries and constants, over histories of resets and starts.
* C70 clocks and resets: modifiers of units and instances, `requiresReset` over the tree of units, header ports, clock and reset texts of registers, state machines, stability checks,
  memories, instances and bound inputs of one bit. Values of these texts are followed down the hierarchy, `none` being a name that is not declared; every other signal is arbitrary. Induction on
  the path of instances: the clock port always carries what the unit is given, the reset port does when something in the unit needs it, which is inherited upwards. Bit-wise bound variables by C05.
* C71 formal checks: what is recorded while gathering (the source as a sequence of instructions, starts of blocks and checks), the texts written among the register updates, and their meaning
  on waveforms (`$past`, `$stable`, `$initstate`, values before the first cycle arbitrary). Specification: the state each check stands in, and what it says about the states and values of an execution.
  Proof: invariant of the gathering, then check by check. The added assumptions are put on the register model of C34. Checks in subroutines and pipelines are not modelled.
* C72 expression trackers (Model/Tracker): the assignments written for trackers, the names their operands get, the warnings about `<::`, and the error for assignments after a read. The code of a cycle is any
  nesting of assignments and conditionals, which reads the wires; the circuit has *settled* when each wire carries what is written for it on what the code ends with. Specification: the code run in order,
  each read of a tracker giving its expression on the values of that moment (start of the cycle for `<::`). Proved: if what a tracker follows is not assigned after the tracker was read, the circuit settles, in one way,
  and ends with what the source says; `<::` trackers on variables have the value of the previous cycle whatever the code; the warnings name exactly the operands that are not delayed. Assumed: operands of `<::` are
  not temporaries (C42), trackers do not depend on themselves (C57), reset aside. Not modelled: parts and tables, inouts.
* C73 imported modules and declarations at the top (Model/Import): gathering of ports and parameters from a parsed header, parameters written for instances, the tables of declarations, search of files and the order
  of the output. Specification: bits of a Verilog range, the value given last, the declarations of a kind in order, the places where a file is looked for. Not modelled: the parser of headers (ranges that are not
  numbers are syntax errors there), the framework part of the output (C40, C41), units generated by Lua (C62).
* C74 labels and jumps (Model/Jump): gathering of statements with labels, `goto` (known label, forward reference), resolution of forward references, errors. The meaning is given on positions in the text, with
  no blocks (Spec/Jump). Each statement is related to a part of the final graph (`JFrag`), by induction on the program, then steps of the text are simulated by steps in the graph, both ways. Not modelled: labels
  and jumps in subroutines (same table), switches, joins, pipelines; the order in which errors on unknown labels are reported.
* C75 `return` outside of subroutines (Model/Return): it is an instruction of its block, for which an assignment of the index is written with those of the block. Emitted code of Model/Fsm with these assignments added is
  compared with the code without them, by showing that every path through the code of a state ends with an assignment of the index. The claim fails for all programs; shown: no effect at all, a run of tests/return_in_algorithm.si,
  and the cycles in which nothing else assigns the index.
* C76 permissions of subroutines (Model/Permission): the tables made from the parameters (groups with their members), own variables and what may be called; the check of instructions and conditions block by block, which passes
  over blocks without a state number; the check of calls while gathering. Specification: `MayRead`, `MayWrite` from the declaration, calls in the text. Linked to runs of the hardware by the fact that a cycle starts with a
  block that has a number. Names are those the compiler uses; what an instruction accesses is given (C32).
* C77 types (Model/WidthOf): reading the text of a type, the range and sign written in Verilog declarations, `widthof` in expressions, constants and the preprocessor, `signed`. Texts are characters; the specification reads
  Verilog ranges and numbers back (Spec/WidthOf). Contexts of instances are those of C36, whose theorems are used for ports. Not modelled: widths of memories and tables, Verilog's own evaluation of expressions with `widthof`.
* C78 the linter (Model/LintCode): warnings along the typing of expressions (C06), on assignments, inputs of calls and results of joins, the error on trackers, and what it is applied to: the `x := e` of the unit, trackers,
  blocks that have a state number; then the check made on each assignment when it is written (all bodies in the emitted code). Specification: `Fault` on subexpressions, Verilog's comparison and assignment on bit patterns (Spec/LintCode). Linked to runs of the hardware as C76. Types of variables are given. Bindings: Model/LintBind. Not
  modelled: positions of reports.
* C79 `x ::= e` (Model/Delayed): the inserted variable and its name, what the statement accesses, the text cut at `=` and written in two assignments, with sides of reads, the dependency check (C29) and the classification of
  the inserted variable (C32). Specification: values before and after each statement over cycles (Spec/Delayed), the rest of the unit being an arbitrary function. All variables are flip-flops. Not modelled: resets, parts.
* C80 flags that keep pipelines from starting (Model/Started): the search for the pipelines of a branch, the text that sets and clears flags in conditionals, switches and loops, collapsed `after` blocks, where `after` becomes a
  state, and the check that a pipeline is followed by a new cycle. The graph of blocks is given by its structure. Specification: the flow of the code for given tests (Spec/Started). Induction on the code. Linked to the first
  stage of C26. Proved for the states called `simple`; each condition in it is needed, by counterexamples. Not modelled: instructions and computation of tests (C53), choice of the case (C66), pipelines nested in stages.
* C81 last states of pipeline stages (Model/Padded): the search for states of the stage reached from the last state, the state added by `padPipeline`, the index of the stage in the next cycle. Code and flow as in C80. Proved when the
  code after the first conditional or loop of the last state does not go back. Not modelled: the numbering of states (C18); which state is the last one is given.
* C22 caller-id registers vs an abstract call stack; invariant over all executions without recursion.
* C23 trickling registers as a shift register along the stages; invariant over all streams.
* C24, C25 `orderPipelineStages` as greedy selection; topological order and completeness.
* C26 handshake registers (index, full, stall) as a transition system; refinement to a queue of items.
* C27 per-stage write checks; induction on stages.
* C28 closure as a fixpoint on finite maps; equality with the reachability relation.
* C29 sequences, and code with conditionals (walk, copies of the map per branch, merge); soundness with respect to data flow
  along every path. With conditionals: variables assigned in a branch must not be assigned before it nor in another
  branch, counterexamples otherwise.
* C30 usage analysis as abstract interpretation over structured code; soundness for all paths; negation for
  the cases the code does not cover (termination state).
* C31 define-inlining semantic; negation with a witness, partial theorem. For code with conditionals (Model/InlineCode) the second pass is a translation
  with the macros of the text before, followed by an execution; the first pass by an invariant on the dependencies and stability of all paths, the
  execution by an invariant on the path taken. That the chosen variables are assigned on every path before comes from the usage analysis of C30.
* C32 decision table of `determineUsage` on top of the exploration of C33, and for all programs through the next item.
* C33 worklist path exploration against paths of the block graph; holds when each block directly follows a block that all
  paths to it go through; negations without it and for part selects. Graphs gathered from statements have this shape from each of their
  states (Lemmas/GatherDom, by induction on the statements), so for programs no condition is left.
* C34 clock edge of the module registers (`Model/Regs`): histories of arbitrary resets and run inputs, arbitrary
  combinational part. Partial: tables with fewer initial values than entries are excluded (the compiler reads past the
  list, shown by `C34_counterexample_short_table`).
* C35 the `done` expression, for any number of pipelines and stages, tied to the history of the pipelines
  (`Model/PipeRun`): high iff everything that entered came out. Stages of always blocks have no idle state and give no
  term.
* C50 caller (calling, waiting, next state) and callee side by side; callee without pipelines, one clock.
* C36 association-list contexts; precedence.
* C37 the loop on names with the renaming of the block at each turn, and histories of declarations; chain end, termination.
  False when a block redeclares a name met by a chain started outside. Not modelled: members of groups.
* C38 images and palettes to tables and back; bit packing over Nat, uniqueness of the packing. Depth 0 excluded.
* C39 address arithmetic over Nat, the generated decoder and the always block of the SoC as a step function; memories up to 2^30 bytes.
* C40 loop over ports and elements of pin groups; exact acceptance condition; negation for single bits (not checked).
* C41 the emitted text as characters, read back by a small reader of Verilog concatenations; negations for a bit select on
  a pin of one bit and for indices out of range.
* C42 worklist over wires = reachability through definitions; effect on the storage class (on top of C32).
* C43 `std::unique` and `std::sort` as relations (unspecified tail, precondition of the order). Proved without duplicates; false for
  every request with a duplicate, undefined behaviour possible with a repeated `bmc`.
* C44 range checks; negation for the incomplete overlap test, partial otherwise.
* C45 `VerilogTemplate::fromString` on character lists, against simultaneous substitution, for every order of the keys; partial to values without `$` and markers
  that are not stuck together, with counterexamples.
* C46 bit ranges of member accesses; negation for unbounded part select.
* C47 `gatherRepeatBlock`: gathering a repeat block is gathering its copies; accepted code uses the index in repeat blocks only.
* C48 `gatherCircuitryInst` and the renaming rules, against a denotational meaning of code with circuitries, by induction on the code; partial to code
  that hides no name in scope, with four counterexamples (the renaming is applied twice).
* C51 temporaries of `addTemporary`, in the same model; they are computed at the beginning of the block: counterexample, partial theorem
  for expressions on variables not assigned before in the block.
* C49 generated cycle (combinational code on `_d`/`_q` names, then the clock edge) against a source semantics where
  every variable keeps its value; simulation over any number of cycles, using the usage analysis of C30.

## Where the code does not do what is documented or expected

Each item is a theorem named `Cxx_counterexample_...` (or stated in the note of the property in MANIFEST.json); the positive theorem of the
property then excludes the case.

* C01 a memory of one entry gets an address of zero bits. C02 the one-hot state index is undefined from 32 states on.
* C03, C04, C46 repeated bitfield members accepted; sized constants given to members are not checked; a part select can leave its member.
* C05, C44 binding a whole variable then a part, and overlapping inout parts, are not detected.
* C06, C07 widths of long operations; the replicated width is overwritten. C08 some malformed literals pass.
* C09, C34 reset code reads past the list of initial values of short tables.
* C11, C13, C14 a clock bound twice; collisions of names through groups; a member of a group matched twice.
* C15, C16, C17 cycles of includes under ever new relative names; line numbers inside nested calls; `if` stuck to a parenthesis.
* C19, C20, C21 `L: goto L;` hangs the compiler; a subroutine that never returns fails an assertion; switches without default hang.
* C22 recursion overwrites the caller. C26 pipelines in conditionals. C29, C31, C32, C33 dependency and usage analysis on joins of paths.
* C30 an always_after block of a terminated algorithm reads temporaries that are not assigned.
* C36, C37 crossed bindings of parameterised instances; `sameas` through a shadowed name.
* C38, C39, C40, C41 palette order; bus check one port too early; pins driven twice; illegal bit selects.
* C43, C45, C48, C51 duplicate formal modes; markers in templates; renaming applied twice in circuitries; temporaries computed too early.
* C52 leaving a `while` that contains a `break` takes a cycle, and so does a conditional whose only side that reaches what follows takes several
  cycles, although the documentation says that they do not; a call that is never executed can add a cycle to a loop.
* C55 `a & &b` is written `a&&b` (logical and), `a | |b` is written `a||b`, `a ^ ~&b` becomes the negated exclusive or of `a` and `&b`; `a - -b` and
  `a && &b` are written as `a--b` and `a&&&b`, not accepted by Verilog; `{2{3{a}}}` is accepted and is not Verilog. `? :` groups to the left in
  the grammar and to the right in Verilog.
* C54 in the older syntax for algorithms only the last of several always blocks is executed, and code that takes several cycles is not rejected there.
* C56 with a masked template that is not configured only the lowest byte can ever be written; with a width that is not a multiple of 8 the upper bits
  can never be written; reading while writing gives the old value on the board and the new one in simulation. Not stated as theorems: clocks given to
  a single port memory fail an assertion, and the loops of the dual port template with a mask share one loop variable.
* C57 loops are not reported through an instance that is called or has `<reginputs>` but with an input bound with `<:` (which is not registered); through a
  tracked expression written with `<::` on an output of an instance; through a variable whose bits receive a registered output first and an
  immediate one next (only the first binding is looked at). A unit whose plain `output` is bound to an immediate output of an instance inside
  counts as registered (not in the model: flags of outputs are given). Conversely a value overwritten later in the cycle may cause an error.
* C58 a stage later than the one that assigns a variable with `^=` sees the previous value if it has to be evaluated first; a variable assigned
  before the pipeline in the same cycle and with `vv=` in a stage is seen at once by later stages. Not stated as theorems: pipeline operators
  on outputs are accepted and ignored; a variable assigned by two stages and read by neither the last nor later ones is written twice per cycle.
* C59 an output declared with `output` and bound to an `output!` of an instance changes in the same cycle as the latter.
* C60 `A b_c;` besides `B b;` with `A c;` inside `B` gives two modules of the same name; an output `done` or `clock`, an input `run`, a variable `caller` in a
  unit with subroutine calls, an instance `q` besides a variable `run`, or a tracked expression `a_v` besides instance `a` with output `v` are declared twice;
  importing a Verilog file twice writes its module twice. Not stated as a theorem: `append` of the same file twice writes it twice.
* C61 the preprocessor: an apostrophe in a string ends the Lua string; `"a\\\\b"` becomes a string with a backspace; a comment ending in `**/` is not left; a comment
  glued to a word is read as text, so that a quote in it starts a string; a tab after `$e$` does not separate; `a / // comment` loses the slash; text before `$$` on a line is
  printed after the Lua line. Not stated as a theorem: an `$include` in a comment is carried out.
* C61 (with `readString` skipping blanks, which `unit main` needs) the first blanks of a string, and those after an escape sequence, are lost.
* C62 a comment on a Lua line is read as source: the word `unit` or a brace in it counts; an apostrophe in a comment that starts without a space skips everything up to the
  next one; `$$if(x) then` and `function()` are not seen as blocks; the name of a unit goes on over the end of the line.
* C63 a part or a member of a whole table is accepted, and is not Verilog; indices and parts given as numbers are not checked; a variable that became a macro may be read
  through a bit field, which is not Verilog; the names made by the compiler for members of groups (`g_x`) can be used in the source.
* C64 arguments of a call are evaluated one after the other, so `m <- (m.q, m.p)` does not exchange when both were assigned in the cycle; indices of receivers use values from
  before the cycle although assigned by an always block; a join may receive in an own input, in a name given to an expression, and in part of a variable bound to an output.
* C65 an output bound to a whole inout drives nothing, and one bound to a part gives a statement without its semicolon; with split inouts a unit that only reads leaves the
  enable floating, bits bound to nothing have no enable, and reading a part contradicts the enable; with `inout!` the enable comes one cycle after the value.
* C66 one sized value makes all comparisons of a signed switch unsigned, one value without size makes sums overflow into 32 bits; negative values match unsigned variables of
  32 bits; two defaults or no case at all are accepted; one-hot switches may name a bit twice or a bit that does not exist, and run a case when several bits are set.
* C67 a port named like a member of the group, but not part of it, is connected as well; a member may be listed as input and as output, which gives two ports of one name; a group
  that lacks members can be bound to ports made from a group, inputs stay unconnected; the order of ports of an entire group is that of a hash table.
* C68 an identifier used before a declaration of it in the same sequence is the later declaration; a variable of a subroutine named like a parameter is never used; names made by
  gluing meet names of the source: labels and identifiers are refused as redeclared, a variable written is translated twice and may be another one, a parameter may be a variable
  of the algorithm, and names the compiler makes can be used. A stage of a pipeline after a switch starts inside the last case and does not see what was declared after it. Scopes are only checked in blocks
  that are states: `{ foo: uint8 y = 0; } { foo_y = 1; }` is accepted.
* C69 a `sameas` variable with an initial value of its own starts with that of the variable its type is taken from, and with 0 if that has none (an input); with `(v)` this only happens
  when it is never assigned.
* C70 a unit in which nothing needs a reset has no reset port, but may bind `reset` to an input of a Verilog module (which then floats) or check the stability of an input (which reads an
  undeclared name); the clock or reset of a unit given by a variable bound in part is written as the record of the binding (`posedge ;wire,0,1`).
* C71 checks on the past or on stability in always blocks, first in an algorithm, in conditionals or loops, or in states without instructions are never tested; with one-hot states they are tested in
  another state; `#stableinput` of an inout or of a member of a group, and `#assert`, `#assume`, `#restrict` in units with a reset of their own or without reset, read undeclared names; for an algorithm
  that starts on its own, the assumptions written exclude every execution of more than one cycle, so that every check passes.
* C71 (not proved) labels are states only if they are jumped to (/repo/src/Algorithm.cpp 1959-1965): `#wasin(init, 3)` of the README is refused unless some `goto init` exists.
* C72 `o = t; a = 5;` with `t <: a + 1` gives `o` the value 6 that the expression has at the end of the cycle, not the one it has when read. The error meant for this ("changes the value of a <: tracked expression that was
  assigned before") is never reported: the test at 4914-4917 looks at the tracker itself instead of the variable that depends on it.
* C73 ranges written upwards (`[0:7]`) give zero or negative widths; two imports of modules with one name are accepted (the check at 179 is on the name of the file), the first file is then written twice and the second
  never; a file appended twice is written twice; parameters the module does not have are ignored; an empty declaration of a parameter (`#()`) follows a null pointer (modelled as undefined).
* C74 a label in a side of a conditional that is jumped to by a later `goto` becomes a state after the conditional was recorded as one that fits in a cycle: coming to the label in sequence, the machine goes on after the
  conditional in the same cycle and never runs the statements after the label (the same defect as `C21_counterexample_stale_label`, here from the source text).
* C75 `return` outside of subroutines never has an effect: an assignment of the index follows on every path, in the same cycle. In tests/return_in_algorithm.si the loop goes on. Only after a switch without default (and
  followed by a new state) in which no case matches does it hold.
* C76 accesses of a subroutine in sides of conditionals, loops' bodies and nested blocks are never checked: the check passes over blocks without a state number (6599), meant for blocks that are not reached, but only states have
  one. What is found is a warning only; the program is accepted.
* C77 `uint0 a` is accepted and declares `[-1:0]`, two bits, while `widthof(a)` is 0; `widthof` in constants (initial values, widths of part selects) does not translate names, so that in a block that redeclares a name it is the
  width of the outer variable, and gives a name declared nowhere (`P_WIDTH`) for `auto` ports.
* C78 the linter passes over blocks without a state number (6762), meant for blocks that are not reached: sides of conditionals, nested blocks, the text of `always` blocks (gathered as nested blocks) and the start of the
  algorithm of a unit (gathered in a block of its own, 4037) are not linted: no warnings there. Assigning an expression tracker there is still an error, from the second check made when the
  assignment is written (8518), but none is given when the tracker receives the output of a join, nor for `t := e` on a tracker with a type `sameas(...)` (the type is not resolved, ExpressionLinter.cpp:60): that assignment is
  dropped without report (8539). `m_WarnAssignWidth` is never set: assignments that drop bits are not reported; nor are unsigned values assigned to signed variables.
  Binding a port to `clock` or `reset`, also with `<:auto:>`, always gives a warning on widths (the width is taken to be -1, ExpressionLinter.cpp:232); the signedness of ports bound to names is not compared (239).
* C79 the dependency check takes `x` to depend, in the cycle, on what `x ::= e` reads: `b := a; x ::= b; b := x;` is refused as a combinational cycle, although there is none. (Not proved: `x[..] ::= e` follows a null
  pointer, 8547; a user variable named `delayed_<line>_<column>` is taken for the inserted one.)
* C80 a pipeline that follows a conditional in the same cycle, outside of all conditionals, never starts: both branches set its flag (the search goes past the end of the branch, 8446) and 9142 clears flags only inside of
  conditionals. The search ends at the first pipeline: with two pipelines in a branch, the second one starts even if the branch is not taken. In a loop that has a `break`, a pipeline of the body starts once more when the test
  fails (nothing is disabled at 9020); the output recorded in tests/pipeline29.si shows this, `[B,A] 0,3` being printed by a loop `while (j != 3)` that ends a stage. A branch where a pipeline is followed by `++:` is taken for a branch of one cycle (2854 ends at the pipeline), and what follows the conditional is carried out in the same cycle.
* C81 `padPipeline` is applied once (4353) and only to the conditional or loop in the block of the last state: with two conditionals that go back into the stage, or one after a loop, the last state still goes back; if data of the
  previous stage is waiting then, the stage starts with that data and drops the one it had. Conditionals in a nested block fail the assertion at 4275.
