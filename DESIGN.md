# Formal model of iden3/ffiasm in Lean 4

## 1. What is modelled, and how

The model lives in `lean/Verif/`. Every definition cites the file and lines of `/repo` it models.
The layers, bottom to top:

| layer | code | model |
|---|---|---|
| limbs, GMP `mpn_*` | GMP (external) | `List (BitVec 64)`, little endian; the `mpn_*` routines as carry-propagating loops (documented contract) |
| raw field | `src/fr_raw_generic.cpp.ejs`, `src/buildzqfield.js` | functions on limb lists, parameterised by *any* odd modulus `q`; generated constants as functions of `q`; both generated variants of the Montgomery product |
| tagged field | `src/fr_generic.cpp.ejs`, `src/fr.cpp.ejs` | a store `Loc → Elem`; every routine takes locations and returns a new store (or a fault), so aliasing of result and operands is exact |
| class field | `RawFr` in `src/fr.cpp.ejs`/`fr.hpp.ejs` | Montgomery limb lists, refined to `ZMod q` |
| towers | `c/f2field.cpp`, `c/f6field.cpp`, `c/f12field.cpp` | statement by statement over an abstract base field, with memory cells for result/operand aliasing |
| curve | `c/curve.cpp`, `c/curve.hpp` | statement by statement in XYZZ coordinates over an abstract field; specification is Mathlib's `WeierstrassCurve.Affine.Point` group |
| scalar multiplication | `c/naf.cpp`, `c/exp.hpp` | table-driven recoding of byte lists; group = any additive commutative group |
| multi-exponentiation | `c/multiexp.cpp`, `c/msm.cpp` | accumulator arrays per thread, iteration-to-thread assignment an arbitrary parameter |
| FFT | `c/fft.cpp` | arrays, butterflies executed in an arbitrary interleaving of the jobs |
| threads | `c/misc.hpp`, `c/misc.cpp` | `divideWork`/`parallelFor` as functions; the worker as a labelled transition system over all schedules |
| parsing | `c/splitparstr.cpp`, `c/binfile_utils.cpp`, `c/wtns_utils.cpp`, `c/zkey_utils.cpp` | functions on character / byte lists with distinct outcomes for exceptions, undefined behaviour and divergence |
| x86 | `src/*.asm.ejs`, `src/montgomerybuilder.js` | instruction semantics plus the generator's output for every limb count |
| ARM64 | `src/armbuilder.js`, `src/fr_raw_arm64.s.ejs` | instruction semantics plus the generator's output for its twelve limb counts; the tagged C++ layer on top of it |

Undefined behaviour, `assert` failures, aborts and thrown exceptions are separate outcomes in the model,
never silently totalised.

## 2. Trusted base

* Lean 4.33.0's kernel. Axioms: at most `propext`, `Classical.choice`, `Quot.sound`.
* Mathlib (definitions used in statements: `ZMod`, `WeierstrassCurve.Affine.Point`, `AddCommGroup`, `Finset.sum`, ...).
* The transcription of the code into the model (by hand, cited line by line).  For the assembly listings it is cross-checked:
  `tools/listings/compare.py` prints the model's listings (`Show.lean`) and compares them, line by line, with an independent expansion of
  the templates and generators for 1 to 12 limbs and both kinds of moduli.  Result: 936 of 960 template routines, 96 of 96 Montgomery routines
  and 552 of 552 AArch64 routines are identical, and so are the 18 routines compared with the generated file `benchmark/fr.asm`.  The
  only difference (one line of `rawShl`, per limb count) is an address with offset -8 in a block that is never reached; the model
  has offset 0 there.
* GMP behaves as documented (`mpn_add_n`, `mpn_sub_n`, `mpn_mul_1`, `mpn_addmul_1`, `mpn_cmp`, `mpn_lshift`, `mpn_rshift`,
  `mpz_*`); limbs are 64 bits, `int` 32 bits two's complement, little-endian machine, arithmetic right shift of negative numbers.
* OpenMP runs each iteration of a `parallel for` exactly once on some thread.
* x86-64: the instruction meanings in `X86.lean` (Intel SDM).  Memory is a map from addresses to 8-byte cells and there is no
  page protection; the modelled routines access whole aligned cells only.  Modelled routines jump forwards only.
  `nasm` assembles each line to the instruction it names.
* ARM64: the instruction meanings in `Arm.lean` (Arm ARM); same memory model; the assembler resolves the `=symbol` loads and the jump
  table as written.
* Threads: mutex and condition variable operations are atomic steps; memory is sequentially consistent; one client thread
  drives a worker (the way `ThreadPool` uses it).  Jobs of a `parallel` loop interleave at the granularity of one field
  operation.
* `memcpy`/`new` succeed; allocation failure, leaks and timing are not modelled.

## 3. Plan per property

Statuses are kept in `MANIFEST.json`. "negation" means that the code violates the property as stated; the model then
carries a theorem with a concrete witness and a `_partial` theorem for the part that holds.

* C01, C02, C03 Montgomery arithmetic: loop invariant on the limb-level product arrays (value of the running product below
  `q + B`), for every limb count, both generated variants. Result is stated in `ZMod q` and with `< q`.
* C04 raw ring operations: value lemmas for the `mpn_*` loops by induction on limbs.
* C05 constants: arithmetic on the builder's formulas; `np` by Bézout.
* C06–C14, C16, C17 tagged layer: case analysis over representations on the store model; spec is the denotation of an element in `ZMod q`
  and for bit/shift operations the canonical residue as a natural number.
* C15: negation for `add`, `sub`, `and/or/xor`, `not`, `shl` with witnesses; partial theorem on which aliasings are safe.
* C16: negation for `toMontgomery` of a short element into another element.
* C17: negation for elements agreeing with `q` in the low limb only.
* C18, C19: GMP `mpz` as Lean integers.
* C20: induction on the program.
* C21, C22: refinement to `ZMod q`; square-and-multiply loop invariant over the bits.  The bit counters are 32-bit as in the code, so
  the theorems stop at scalars of 2^28 bytes and `C22_long_scalar`, `C28_long_scalar`, `C35_long_scalar` show what happens beyond (one, one
  and zero).  `set` of an int below `-q` is a negation (`C21_set_small_modulus`).
* C23: negation for zero.
* C24–C28: ring identities (`ring`) over any field; irreducibility of the BN254 tower by kernel-checked modular powers;
  `F2.square` with `nr ≠ -1` and `F12.exp` in place are negations.
* C29–C33: `field_simp`/`ring` against Mathlib's affine group law; eq on the all-zero point and neg of the affine zero are negations.
* C34, C35: invariant of the recoding automaton; table correctness for all 1024 entries by kernel evaluation.
* C36–C39: sums over arbitrary thread assignments; C37, C38 negations with partial theorems.
* C40–C43: primitive roots in Mathlib; Cooley–Tukey induction; C42 negation at n = 1, 2.
* C44–C46: partition lemma (the count and the length of the range are converted to `int` as in the code: `C44_long_range`); invariants of the transition system; C46 negation by a reachable deadlock.
* C47: full domain by bit-length case split. C48: divergence for all fuel (negation) and functional correctness for tuples.
* C49–C53: byte/char list induction.  C51 runs any list of calls on a reader; closing with check when no section is open is undefined
  (`C51_close_idle`).
* C54, C55: symbolic execution lemmas for generated instruction lists, by induction on the limb count.  C54's swap is a negation
  (`rawSwap` stores `rbx`).  For C55 the generator (`buildmont.js`: register manager, delayed flag operations, variables in
  registers or stack slots) is itself a Lean function that returns the listing; a simulation relates the listing to the
  operations on variables that the generator performs, for every limb count.  Negations: the register manager gives the
  variable of rank 10 a slot as well as a register, so `rawMMul1` (7 limbs optimised, 6 not) and `rawFromMontgomery`
  (7 limbs) read stale values; `rawMMul1` for 6 limbs is right as long as its first round has no carry (`AsmMontSixMul.lean`), which
  decides exactly which tagged operations are right for P-384 (`OneWord`, `ConvRight`, `Mul1Right`, and per operand `FromOk`, `ToOk`, `MixOk`, `MulOk`: which elements a routine has to convert; `Props/AsmSeven.lean` runs the others); in `rawFromMontgomery` for 6 limbs (not optimised) the stale values are proved to be zero
  (`AsmMontSix.lean`).  The witnesses run the generated listing in the kernel.
* C56 aliasing of the raw routines (memory model of `RawMem`): negations for `negLS` in place and left shifts in place.
* C57 data races of the FFT: footprints of the jobs (`Race`), disjointness for every pair of different jobs; the
  constructor's table fill races exactly when `nRoots / nThreads = 1` and `nThreads >= 3`.
* C58 pool rounds on the worker protocol: simulation between the loop model and the worker transition system.
* C60 interleaved multi-exponentiation: bodies of the parallel loops as lists of loads and stores on shared point objects; threads
  have disjoint footprints, so each interleaving equals a sequence of whole iterations and the theorems of C36-C39 carry over.
* C59 header checks of the container files: negations for truncated headers and oversized sections.

* C61-C63 tagged routines of the x86-64 assembly: the listings of `src/{add,sub,neg,mul,montgomery}.asm.ejs` run on the machine
  model of C54 with calls into the modelled raw routines; symbolic execution of each of the sixteen tag pairs, related to the
  portable function on the decoded memory (`absMem`), so the residue theorems of C06-C09 and C16 carry over.  Negations: in-place
  add and sub of mixed representations, as in the portable code; `toMontgomery` differs between the backends.

* C64-C66 comparisons, logical and bitwise operations of the x86-64 assembly (`src/{cmpops,logicalops,binops}.asm.ejs`): same
  method; the loops over limbs by induction on the limb count, the portable function as the intermediate result, and C10-C13 for
  the residues.  Negations: in-place bitwise operations on Montgomery operands, as in the portable code.

* C67 shifts of the x86-64 assembly (`src/binops.asm.ejs:284-680`): the raw shifts by induction over the limb rounds, the count
  parser and the two bodies by symbolic execution with the portable function as the intermediate result, and C14 for the residues.
  The code is right in place also for counts of 64 and more, where the portable code copies overlapping arrays.
* C68 `toInt` of the x86-64 assembly (`src/copy.asm.ejs:141-213`, `src/utils.asm.ejs:72-82`): symbolic execution; the borrow chain
  reduces to a comparison limb by limb, which gives the exact set of elements that are answered.  The failure handler is a parameter.
* C69 raw routines of the ARM64 generator (`src/armbuilder.js`, `src/fr_raw_arm64.s.ejs`): the generator is modelled as a function
  from the limb count to a list of instructions with concrete registers; an interpreter gives them meaning (`Arm.lean`).  For each
  routine a virtual program over unboundedly many numbered values is written once for all limb counts; that the generated code
  computes the same values is checked by a verified symbolic executor (`ArmSym.chk_sound`) evaluated by the kernel for each of the
  twelve limb counts the generator accepts (`assert(width <= 12)`, `armbuilder.js:639,703,972,1035,1166,1281,1480`); the values are related to the
  portable functions by induction over the limbs.
* C70 Montgomery routines of the ARM64 generator: same method (`ArmMul*.lean`).  The virtual program is a loop of rounds; each half
  round (product of a word with an array, added with carries) is proved exact once for all limb counts, the rounds by induction with
  the invariant `W^w·P = (first w words of a)·b + M·q`, `M < W^w`, and the twelve concrete programs of each of the six variants are
  matched against it by the kernel (`ArmMulChk1` … `ArmMulChk6`).
* C71 raw shifts of the ARM64 generator: same method (`ArmShift*.lean`).  The jump through the table of word shifts is part of the model
  (an index outside the table is an undefined outcome); every block of every limb count is matched by the kernel, the words are computed
  once for all counts.
* C72 curve code on limb arrays: the arrays below `q` with the class's own routines are made a Lean field (`ElField.lean`; the operations
  are the routines by definition, the inverse of zero, which the code leaves to GMP, is set to zero as Lean's fields require), pairs of
  them with the `F2Field("-1")` routines another (`F2Inst.lean`).  The curve code commutes with field homomorphisms (`FieldMap.lean`), so
  the theorems of C29–C39 are read through the homomorphism array → residue.
* C73 the constants of `alt_bn128.cpp`: read by the modelled text functions; the kernel runs the modelled scalar multiplication on the
  generators (`g1_run`, `g2_run`); the number of points of the first curve is a multiple of `r`, at most
  `2q + 1 < 3r`, and not `2r`, since a point of order two would make -3 a cube (`Bn254.lean`).
* C74 FFT on limb arrays: the constructor is modelled a second time over the arrays, with the class's own conversions (`RawFr.toMpz`,
  `fromMpz`) at the places where it crosses to GMP (`FftLimb.lean`); the butterflies are those of `Fft.lean` over the field of arrays.  The
  tables are taken from fresh memory, each cell of which is written before it is read.
* C75 polynomial multiplication: corollary of C74 (values at the roots of unity determine a polynomial of degree below the size).
* C76 the tagged library on ARM64: the C++ functions of `fr_generic.cpp.ejs` over an arbitrary set of raw routines (`TaggedOver.lean`), the
  set being the runs of the generated ARM64 texts (`ArmImpl.lean`).  Where the routines agree with the portable ones (C69–C71) the
  operations are equal to the portable ones (`TaggedAgree.lean`); what differs is the shifts in place (right here) and the negative
  shorts and one-limb left shifts (wrong here).
* C77 the raw field class in every build: the class over an arbitrary set of raw routines (`RawClass.lean`), the set being the runs of the
  printed x86-64 texts (`X86Impl.lean`), of the generated ARM64 texts (`ArmClass.lean`) or the portable functions.  The sets agree on arrays
  of the width of the modulus (C54, C55, C69, C70), so C21–C23 and, through the field of arrays, C72–C75 carry over.  Negations where the
  routines differ: seven limbs (equality on ARM64, conversion from Montgomery form on x86-64) and the product by a word on x86-64.
* C78 array copy: the x86-64 routine with its `mul` and `rep movsq` (`AsmCopyn.lean`, induction over the words), the portable `memcpy` as a
  copy that is undefined for arrays that meet (`Copyn.lean`).  Negation: the count is taken from a whole register although it is an `int`.
* C79 programs on the x86-64 machine: a caller that, before each call, may change everything but the elements and the tables
  (`Props/AsmProgram.lean`).  Induction over the calls; the frame part of C61–C67 re-establishes the layout after each call.
* C80 the transform on the worker protocol: `fft` and `ifft` are lists of loops (`FftPool.lean`), which the client of the worker transition
  system runs one after the other; a run of the list splits into runs of the loops (`PoolSeq.lean`), each of which is one of C58, so
  that C74 applies to the memory.
* C81 the extension tower on limb arrays: the routines of the three classes commute with ring homomorphisms of the base field
  (`TowerMap.lean`), so C24–C28 are read through the homomorphism array → residue; the constants are read by the modelled text functions
  and compared by the kernel.  The power placed on its base is missing (it returns one, C28).
* C82 `MSM::run` on the worker protocol: its two loops as jobs for the client of C58 (`MsmPool.lean`); digits and points share one memory and
  the second loop reads the digits there.  A run of the jobs is a run of the loops of C60 (simulation `Par.Exec.sim`), so C60 applies.
* C83 memory accesses of the raw x86-64 routines: `touched` (`AsmTouch.lean`) lists the cells read and written along the execution of `run`.
  That the list is complete is proved, not assumed: `C83_reads` (other contents of all other cells give the same registers, flags and
  accesses) and `C83_writes` (all other cells are kept).  Most routines use only base registers they never write, so the text of each line
  decides (`Line.good`); the Montgomery code by induction over the register manager (`AsmTouchMont.lean`); the shifts, whose addresses
  are computed from the count, by following the guards of the rounds (`AsmTouchShift.lean`).
* C84 memory accesses of the ARM64 routines: the same list for `Arm.run` (`ArmTouch.lean`, with the two completeness theorems).  One pass over the
  text (`touchChk`) tracks which registers still hold an operand or table address; its soundness is proved for all states and paths, and the
  kernel evaluates it on the listing of every width from 1 to 12 (`ArmTouchChk.lean`).  The jump table of the shifts counts as code.  Negation:
  `rawFromMontgomery` of odd widths reads one word too many.
* C85 memory accesses of the tagged x86-64 routines: `touched` with the accesses of the callees (`AsmTouchTagRun.lean`; complete: `C85_reads`).
  A symbolic execution of the listing (`Chk.check`, `AsmTouchTag.lean`) follows every path with what is known of registers and stack cells
  (pointer to an argument, to a temporary on the stack, to a table) and is proved sound for every modulus and state (`safe_of_check`); loops over
  the limbs are one step each, justified in `AsmTouchTagFine.lean`; the lists of pieces are proved to be the listings (`AsmTouchTagChk.lean`).
  The kernel evaluates the symbolic execution, which does not depend on the modulus.
* C86 array bounds of the C++ code: the arrays of the models are functions on all indices, so an access outside would be silent; `Props/Bounds.lean`
  proves that there is none.  Per parallel loop: no action of any thread writes or depends on a cell outside the array (`StaysIn`, from the
  footprints of C57/C60, for every distribution of the iterations).  Per entry point: the executions are the same for all other contents behind
  the arguments and tables (`C86_fft`, `C86_multiexp`, `C86_msm`).  Negations: scalars under eight bytes; transforms longer than the table.
* C87 the build option `MSM_BITS_PER_CHUNK`: `MsmAtP` (`Verif/MsmFixed.lean`) is `MSM::run` with a given window width, over the interleaving model of
  C60; `Props/MsmFixed.lean` proves the sum for widths 2 to 30, the exact value for every scalar and width, agreement of widths, no race and no access
  outside the arrays.  Negation: width 1.  Not modelled: widths above 30 (`int` overflow), width 0 (division by zero).
* C88 threads at the level of single instructions: `Conc.Together` (`Verif/Interleave.lean`) is any interleaving of the lines of any number of threads on
  one memory.  `AsmConc.lean` is the x86-64 interpreter of C54 as single steps with a stack of listings (a call enters the listing of the callee, from the
  link table `codes`), `ArmConc.lean` that of C69; `run_alone` proves that a run of the big-step interpreter is such a sequence of steps with the accesses of
  `touched`.  Invariant of the interleaving: each thread is what it is alone, on the cells it accesses.  Simplified: `rep movsq` is one step, the pushed
  return address a constant, memory sequentially consistent.  This justifies for calls with disjoint results the granularity of one field operation used
  in C57, C60, C80 and C82.  `fail` is a listing without lines, so a `toInt` that fails does not return.
* C89 programs of calls (C79) as threads: `callerCode` (`Props/ConcProgram.lean`) is a listing of argument loads and calls by entry-point name, linked with the
  library by `linkAll`; the interleaving model of C88.  Each program alone computes on residues (C79) and accesses only the elements it names, the tables
  and its stack (C85, `caller_touches`); elements that one thread sets and another does not name make the threads independent.
* C90 C88 and C89 with store buffers: `Conc.Buffered` (`Verif/StoreBuffer.lean`) is x86-TSO with stores that may also overtake each other.  The invariant is
  that of C88 for what each thread sees (memory and its own buffer), and that a buffer holds only stores to cells the thread owns.  Not modelled: load
  reordering and speculation of AArch64, fences and locked instructions (the library has none).
* C91 Programs of raw calls (`RawInstr`) as listings (`rawCaller`) on the machine of C88, over `El q` (arrays of limbs below `q`).  One call is C54/C55 for the
  value and C83 for the footprint (`raw_call`); induction over the program; then `together_alone` and `buffered_alone` as in C89 and C90.  The labels of the
  link table are written out (`rawTable`, `opTable`) apart from the names that the caller uses.  Only elements that a program reads before it has set them
  (`RawNeeds`) must hold arrays below the modulus at the start.
* C92 `fft` and `ifft` as a sequence of phases on the machine of C90 (`RawPhase`): in each the threads run the straight programs of calls that the loop bodies
  of `c/fft.cpp` make for their part of the range (`rawBlock`, parts as `parallelFor` divides them), and it ends when all have returned and the buffers are
  empty.  `loop_run`: a phase is a run of the loop of C74 over `El q`, by a simulation of each body (`SimT`) and C91; then C74.  Simplified: the index
  arithmetic between the calls (compiled C++) is not in the listings, the part `j` runs on thread `j`, and the handover between phases is taken from C45/C80.
  `C92_loops`: within each phase no thread is stuck and no two race, whatever the schedule.  The memory may hold further elements; a transform leaves them (`Kept`).
* C93 the use of the transform for products (`RawProduct`): two arrays, one object, `fft` of both, a parallel loop of raw multiplications, `ifft`, all on the machine
  of C92.  The second transform sees the same memory with the arrays exchanged (`swapArr`).  By C92 each step is one of C75, which gives the coefficients.  The loop
  over the cells is the caller's code, not the library's.
* C94 `parallelFor` with any body that is, for each index, a straight sequence of raw operations and sets for one index nothing that it uses for another one
  (`LoopOk`).  The specification is the `for` loop on field elements (`forLoop`).  By C91 and because an index does the same alone, in a part and in the whole loop.
  Bodies with locals of the thread are C95.
* C95 the same for bodies with `w` field elements of their own (`LocalsOk`: set before they are read), each thread with its own copies (`placeOf`, `onThread`).  Needs
  that what a program sets depends on what it reads before it sets it (`rawSpec_needs`), and that moving its elements to other places moves the result (`rawSpec_at`).

Not expressible in the model: timing/constant-time behaviour, memory leaks, compiler optimisations of undefined behaviour.

## 4. Not modelled

* `test/`, `benchmark/`, `c/*_test.cpp`, `tasksfile.js`, `index.js` and the file handling of `src/buildzqfield.js` (its constants are C05), which
  are not part of the library.
* Dead or uncompilable files: `c/fft_old.cpp`, `c/pointparallelprocessor.hpp`, `c/exp2.hpp`, `c/scalar.cpp`, `c/scalar.hpp`.
* Output to `std::cerr`/`std::cout`, logging, `gmp` allocation, the operating system calls behind `mmap` (a file is its bytes).
* The x86-64 `fail` handler, which is a parameter (C68); the calling convention outside the registers and the stack words named in the theorems.
* Data races are modelled where the code shares memory between threads (C44, C57, C60); compilers' freedom on racy code is not.

The axioms of every theorem in the manifest are listed in `AXIOMS.md`, generated by `#print axioms`.
