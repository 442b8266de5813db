# Formal model of stoq-compiler

A Lean 4 model of the Python library in `/repo/stoqcompiler`, with machine-checked proofs of the properties in
`properties.jsonl`.  `MANIFEST.json` lists, for every property, the exact theorem names.  All theorems are for
*all* inputs, states, histories and random outcomes allowed by their hypotheses; no theorem is a check of
samples.

## 1. Trusted base

* The Lean 4.33.0 kernel, and Mathlib as installed (library definitions and theorems are kernel-checked too;
  what is trusted there is that the definitions mean what their names say).
* Axioms: every property theorem depends on a subset of `propext`, `Classical.choice`, `Quot.sound`
  (the three standard axioms of Lean).  The project declares no axiom and uses no `sorry`, `admit`,
  `native_decide` or `bv_decide`.
* The reading of the Python source: the definitions in `Verif/Model` were transcribed by hand, and every one
  cites file and lines.  Nothing connects the Lean model to the running Python other than that reading.
* The idealisations listed in section 4.
* The specifications in `Verif/Spec` and the theorem statements in `Verif/Props`.  The definitions used only in
  proofs (`Verif/Proofs`) need not be trusted unless a property statement mentions them.

## 2. Layout

| directory | content |
| --- | --- |
| `lean/Verif/Model` | the code, function by function |
| `lean/Verif/Spec` | short independent specifications: embedding of a gate as a matrix on bit strings, plain lists with one undo slot, lists of numbered gate objects, the Metropolis walk on gate lists, accuracy of matrix arithmetic, rounding to double precision, reference formulas for RAV, Trotter, QDRIFT, random draws, loss and rotation of density matrices |
| `lean/Verif/Proofs` | lemmas |
| `lean/Verif/Props` | property theorems `Stoq.Cnn_name`, each file with examples showing that the hypotheses can be met |

How the model is built:

* **Exceptions are values** (`PyErr`).  Pure code is in `Except PyErr`; code that mutates objects is in
  `PyM s`, a function from a state to an outcome *and* a state, so that what was mutated before an exception
  remains visible after it.
* **Objects live on a heap** (`World`): entries with their full-unitary caches, sequences with product, undo slot
  and container kind, the `beta` attribute of compilers.  Sharing and aliasing, and `copy.deepcopy` with its memo,
  are therefore represented; C12, C14-C22 are about exactly that.
* **Randomness is two arbitrary tapes** (`Rng`): reals in `[0,1)` and naturals.  A theorem for every tape is a
  theorem for every seed.  Distribution statements (C39, C49, C53, C54) count or measure the draws that
  give an outcome; C66 integrates over the product of uniform measures on the tape of reals.  C68 and later use the product measure on
  both tapes (`Rng.tapes B`); the natural numbers are uniform below `B!`, so that their remainders modulo every bound
  up to `B` are exactly uniform, and `B` is any number at least as large as the lists drawn from.
* **Loops** are structural recursion on their range.  The only unbounded loop (`while` in
  `Hamiltonian.compile_rav_sequence`) takes a fuel argument, and `outOfFuel` means "still running";
  C52 proves both when it ends and when it never does.
* **Sessions** (`Spec/Session`, `Session.ok`): an arbitrary sequence of public calls by a client.  Invariants are
  proved for every session, so the theorems about one call apply after any history of earlier calls.

## 3. What is modelled

Everything in the package `stoqcompiler/`:

| source | model file |
| --- | --- |
| `unitary/unitary.py` | `Model/Unitary`, `Model/Text` (Jaqal, QASM, display names) |
| `unitary/unitary_definitions.py`, `parameterized_unitary_definitions.py` | `Model/Definitions` |
| `unitary/parameterized_unitary.py`, `parameterized_unitary_parameter.py`, `unitary_primitive.py` | `Model/Parameterized` |
| `unitary/unitary_sequence_entry.py` | `Model/Entry` (pure part), `Model/Sequence` (cache) |
| `unitary/unitary_sequence.py` | `Model/Sequence`, `Model/Text` |
| `compiler/compiler.py`, `compiler_action.py`, `compiler_result.py` | `Model/Compiler` |
| `verification/verification.py` | `Model/Verification` |
| `hamiltonian/hamiltonian.py`, `hamiltonian_term.py` | `Model/Hamiltonian` |
| numpy arrays and `allclose`/`isclose` | `Model/Num` |
| `numpy.random`, `random` | `Model/Rng` |
| exceptions, state | `Model/Py` |

The programs of `tests/test_unitary.py` are in `Model/Tests`, those of the other files of `tests/` in
`Model/TestsCompile`, the notebook `examples/stoq_example.ipynb` in `Model/Example`, as clients of the model.  Samples of scipy's
`unitary_group` are arbitrary matrices there; hypotheses of the theorems say that they are unitary up to rounding.

And from `paper/`:

| source | model file |
| --- | --- |
| fidelity estimates, their standard deviations and the simulated experiments in the notebooks of fig3, fig4, fig5, fig8, fig9 | `Model/PaperFidelity` |
| `fig5/noisy.py` (`fig7/noisy.py` is the same file), with the functions of qscout and pygsti it calls as documented there | `Model/PaperNoise` |
| `fig10/fig10.ipynb` and `fig12/fig12.ipynb`, cell 3: averages of the recorded costs | `Model/PaperPlots` |
| `fig4/sequence-generation/ideal_rav_vs_xeb_simulations_*.ipynb`, cell 2: the gate set `qscout_r`, `qscout_rz`, `qscout_ms` | `Model/PaperPrimitives` |
| `fig4/sequence-generation/ideal_rav_vs_xeb_simulations_*.ipynb`, cells 4, 5 and 11: generation of the circuits and of their files | `Model/PaperGenerate` |
| `get_2Q_gate_count` in the notebooks of fig8 and fig9, `get_layer_count` in `fig5/fig5.ipynb` | `Model/PaperCount` |
| runs and bins in `fig8/fig8a.ipynb`, `fig8/fig8b.ipynb`, `fig9/fig9a.ipynb`, `fig9/fig9b.ipynb` | `Model/PaperBins` |
| `discard_odd`, `files_to_list` and `all_success_rates` in the notebooks of fig8 and fig9 | `Model/PaperFiles` |
| `exponential_func`, `gaussian_func`, `func_exponential` and the reduced chi-square in the notebooks of fig5, fig8, fig9, fig12 | `Model/PaperFits` |
| the curves of `fig3/fig3.ipynb` | `Model/PaperFig3` |
| the repetitions and `np.std` of `fig4/sequence-generation/*.ipynb` (cells 6, 8, 12, 14) | `Model/PaperScatter` |
| the points and curves of `fig4/fig4.ipynb` | `Model/PaperFig4` |
| the matrices of the circuits in `fig4/sequence-generation/*.ipynb` (cells 6, 12) | `Model/PaperFig4Circuits` |
| `simulate_results_RAV`, `simulate_results_XEB` and the points of `fig5/fig5.ipynb` | `Model/PaperSimulate` |
| fits of the runs in `fig8/fig8cd.ipynb` and `fig9/fig9cd.ipynb` | `Model/PaperPrecision` |
| groups and error bars in `fig7/fig7.ipynb` and `fig12/fig12.ipynb` | `Model/PaperGroups` |

Not modelled: the rest of `paper/` (plots, data files, older copies of the library),
`docs/`, `setup.py`; elapsed time in `CompilerResult`; `isinstance` assertions and type coercions
(values are typed in the model, so calls with arguments of wrong Python types are outside it);
aliasing of numpy buffers (arrays are values; the library never mutates one after construction);
integer overflow of numpy integers; memory exhaustion; keyboard interrupts.

## 4. Idealisations

* **Numbers.** Matrix arithmetic is a parameter `Arith` of the model: the clean-up threshold of the constructor
  (`codeTau = 1e-12` is the code's value) and arbitrary functions for the entries of products, Kronecker products,
  matrices with balanced phase, gate matrices, exponentials and for the number `distance_from` computes.  Structural
  theorems hold for every `Arith`, so whatever the rounding errors are.  Exact numerical identities are stated for the
  `Arith` 0: exact operations, no clean-up.  C56 (one operation), C57 (programs), C61 (compilation), C62 (library gates),
  C63 (verification sequences) and C64 (Hamiltonians) are for every arithmetic with `Arith.Accurate`
  (`Spec/Accuracy`): clean-up threshold plus twice the error of a computed entry.  C75 derives that from the error of
  single real operations, and for IEEE double precision from the definition of rounding (`Spec/Machine`).  The tolerances
  of the code are kept literally: `np.allclose`/`np.isclose` use `atol = 1e-8`, `rtol = 1e-5`.
* Not rounded: the entry-wise operations of conjugation and permutation (which are exact in floating point as well), the
  comparisons in `allclose`, the test for a zero determinant, sums and normalisation of Hamiltonian matrices, scalars
  (angles and times, `beta`, acceptance probabilities, random numbers, QDRIFT probabilities) and the numbers in the paper's
  notebooks.  Matrix products and traces add their terms in any order and with any brackets, with or without fused
  multiplication and addition (`Machine.Adds`); algorithms with fewer multiplications (Strassen) are not covered.
  Numbers have no largest exponent (no overflow).
* `Arr.val` is meaningful only inside the shape; statements compare arrays through `toMatrix`.
* `Unitary.__init__` on an accepted but singular matrix would give NaNs; the model raises the marker `nonFinite`.
* `scipy.linalg.expm` is the exponential up to the error allowed by `Arith`; `np.max` of the singular values the l2 operator norm, and the
  sample returned by `scipy.stats.unitary_group.rvs` an arbitrary parameter.
* A non-square array given to `time_evolution` is rejected by the Hermiticity assertion in the model; numpy
  raises as well, possibly with another exception class.
* `str(round(v, k))` is a parameter `fmt`; the theorems about text hold for every `fmt`.
* QDRIFT's display suffix uses the index of the chosen term.  Qubit numbers are printed as Python ints.
* `np.random.choice` without `p` and `shuffle` use integer draws below a bound; numpy's way of turning bits into
  such a draw is not modelled (C68 assumes that it is uniform).  `choice` with `p` inverts the cumulative sums, and `shuffle` is Fisher-Yates.

## 5. Facts about the code the proofs brought out

* `get_permute_matrix` is big-endian; for a dimension that is not a power of two it raises `ValueError` (C10, C13).
* `get_full_unitary` and `tensor` drop `is_inverse` (C04, C24).
* `UnitarySequence.inverse` inverts an entry object twice when it occurs twice in the list (C18).
* A sequence built from a numpy array can be read and combined, but `append`, `remove` and `inverse` fail (C22).
* A failing `append` at dimension 6 leaves a stale product (C21).
* `close_to` with threshold `None` accepts distance up to 1e-8, `close_to` with threshold 1.0 does not (C06).
* The constructor's tolerance is not closed under multiplication: two accepted matrices can have a rejected
  product (C07).
* `create_random_sequence_entry` filters primitives without an allowed position but passes the unfiltered
  probabilities to `np.random.choice`, which then raises `ValueError` (C38).
* `Compiler.beta` is never reset, so a second `compile` with the same object starts cold (C37); the cap is
  `(2**dimension)**2` with `dimension` the matrix dimension (C36).
* Layered `append_first` inserts the layer in reverse order (C40); negative layer counts break layers (C40).
* `generate_rav_sequence` with threshold `None` raises `TypeError` (C44).
* `HamiltonianTerm` of the zero matrix fails its last assertion, a 0x0 matrix raises `ValueError` (C45).
* `num_steps = 0` raises `ZeroDivisionError`; negative `num_steps` gives an empty sequence (C46, C47).
* `compile_rav_sequence` with `max_t_step = 0` and positive time does not terminate (C52).
* `time_evolution(h, t).inverse()` and `time_evolution(h, -t)` can differ by a sign of the stored matrix,
  never as operations (C29).
* `scaled_fidelity`, simulated for fig. 4, is not the estimate whose standard deviation is `std_f_rav`: it is smaller by
  a factor that depends on the return probability (C66).
* `std_f_xeb` neglects the correlation of the measured frequencies and overestimates the standard deviation (C66).
* The default power sums of `std_f_xeb`, with which figure 3 is drawn, are those of no probability distribution (C106).
* A circuit selected for its distance of at most 0.02 returns with probability 0.96, the value of the default error, on average over the initial states, but not necessarily from the state that is simulated (C67, C109).
* `r_rotation_error` of the noisy emulator is documented as the over-rotation during one pi/2 gate, but the same angle is
  added to every gate, however short (C73); errors of a gate and of the gate with the opposite angle cancel exactly.
* `UnitaryDefinitions.rphi(theta, phi)` has the name of the native JAQAL gate `R q axis_angle rotation_angle` but its
  parameters in the opposite order, so `get_jaqal` prints a different gate: `rphi(pi, 0)` is printed as no rotation
  (C74).  The gate set of the paper's notebooks has the right order.

## 6. Testing the theorems against wrong programs

`seeded/LOG.jsonl` records edits made to the model in a scratch copy (one bug per line), the claim each breaks,
the theorems that stopped compiling, and what was tightened when a bug was not caught.  When the edit breaks a
lemma that merely mirrors the code, the log entry is judged by the property *statement*: the edited program
falsifies it.  `theorems_failed` lists every property theorem that no longer checks after the edit, including those
that only depend on a broken lemma; `falsified_by_reading` lists the theorems whose statement the edit makes false.

## 7. Method per property

* **C01 Unitary construction normalises without changing the operation** - `Unitary.new`; determinant/cpow algebra.
* **C02 inverse() is a two-sided inverse and an involution** - matrix algebra on `Unitary.inverse`.
* **C03 left_multiply/right_multiply compose in the documented order** - matrix algebra.
* **C04 tensor() is the Kronecker product** - `Arr.kron` vs `Matrix.kroneckerMap` through the index bijection.
* **C05 distance_from is a phase-blind, symmetric, bi-invariant [0,1] distance** - Cauchy-Schwarz for the trace inner product.
* **C06 close_to(threshold) means overlap at least threshold** - from C05; explicit witness rotation for None vs 1.0.
* **C07 Constructor tolerance is not closed under multiplication** - explicit witness diag(1+e, 1/(1+e)).
* **C08 Embedding a gate on chosen qubits acts on exactly those qubits in the given order** - literal model of `_select/_perm_inds`; bit-level induction.
* **C09 Embedding is a homomorphism; gates on disjoint qubits commute** - from C08.
* **C10 get_permute_matrix is a permutation matrix for the qubit relabelling** - from C08's index bijection.
* **C11 Entry and primitive constructors accept exactly the well-formed qubit lists** - decision logic, iff.
* **C12 The full-unitary cache is invisible** - heap invariant (cache coherence) over all histories.
* **C13 Systems whose dimension is not a power of two cannot host entries** - decision logic.
* **C14 A UnitarySequence behaves as a double-ended list under every history** - refinement of the heap model to lists, induction over histories.
* **C15 product() is always the ordered product of the current entries** - representation invariant over histories.
* **C16 undo() restores exactly the state before the last saving change** - same invariant; abstract undo slot.
* **C17 UnitarySequence.inverse() is the inverse sequence (when no entry object is shared)** - heap reasoning with no-sharing hypothesis.
* **C18 UnitarySequence.inverse() is wrong for shared entry objects** - parity theorem + concrete witness.
* **C19 combine() concatenates** - refinement.
* **C20 Isolation: no operation changes another sequence or another entry object** - frame theorem for every operation.
* **C21 Rejected entries leave a sequence untouched (power-of-two systems)** - exception-state model; witness at dimension 6.
* **C22 Array-backed sequences are accepted but cannot be changed or inverted** - container kind in the model.
* **C23 Text outputs list every entry once, in order, with its qubits** - string model, number formatting abstract; also for all sequences returned by the library (sessions).
* **C24 Text outputs lose inversion** - string model.
* **C25 Random parameter values are always valid** - real inequalities.
* **C26 as_unitary validates and instantiates parameters** - decision logic.
* **C27 Standard gates are unitary for every angle and obey their group laws** - 2x2/4x4/8x8 matrix identities with real angles.
* **C28 gms is the product of all pairwise XX gates for every qubit count** - commuting embeddings, induction over pairs.
* **C29 time_evolution is a one-parameter unitary group** - matrix exponential.
* **C30 compile()/compile_layered() terminate within the step budget** - loop with fuel; fuel never runs out.
* **C31 compile() is the Metropolis walk on gate lists** - simulation proof between heap program and pure reference walk.
* **C32 Reported costs are the distances actually reached** - corollary of C31 + C05.
* **C33 compile() never fails with 'can't undo' and never raises on valid inputs** - progress part of C31.
* **C34 Every compiled gate comes from the given primitives on allowed qubits** - invariant on reference walk.
* **C35 Acceptance rule: improvements are always accepted; detailed balance** - real analysis of exp.
* **C36 Annealing schedule** - induction over steps.
* **C37 Reusing a Compiler is history dependent** - explicit witness run.
* **C38 Primitives with empty allowed lists are skipped, unless probabilities are given** - decision logic on np.random.choice.
* **C39 Action probabilities** - arithmetic + invariants.
* **C40 Layered compilation keeps whole layers** - invariant on the layered reference walk; witness for negative counts.
* **C41 Random layers contain exactly the requested counts** - Fisher-Yates is a permutation.
* **C42 RAV sequences are a random prefix followed by an approximate inverse** - C31 + bi-invariance of the distance.
* **C43 Layered RAV and XEB lengths and composition** - C40/C41 + C42.
* **C44 Skipping the inverse compilation** - decision logic.
* **C45 HamiltonianTerm normalisation** - l2 operator norm.
* **C46 Ideal sequence reproduces the time evolution exactly** - exp(A)^N = exp(NA).
* **C47 Trotter sequences visit every term once per step** - Fisher-Yates + commuting exponentials.
* **C48 Trotter sequences converge to the ideal evolution** - Lie-Trotter estimate.
* **C49 QDRIFT samples are unbiased to first order** - finite sums.
* **C50 Term subsets are enumerated exactly once** - itertools.combinations model vs powerset.
* **C51 STOQ time-evolution compilation respects max_t_step** - C34 + parameter ranges.
* **C52 Hamiltonian RAV: total time of the random part** - loop invariant; non-termination for every fuel.
* **C53 Random gates are drawn uniformly** - each outcome of `create_random_sequence_entry` against the exact draws that produce it; counting.
* **C54 Shuffles and choices without replacement are uniform** - Fisher-Yates draws are in bijection with permutations.
* **C55 The search is complete** - for every target circuit over the primitives a tape exists on which `compile` returns it; draws chosen before the annealing state.
* **C56 Clean-up and rounding cost a bounded error per operation** - L2 operator norm; cleaning changes each part by at most tau and rounding each entry by at most e, the determinant phase is divided out.
* **C57 Edited sequences stay within the error budget** - simulation relation between the heap and plain lists carrying an error bound per stored product and per stored gate; all calls of the sequence interface are covered (`inverse` under the condition of C14).
* **C58 Returned sequences do not share entry objects** - a predicate on the heap (`Apart`: all sequences made since a point have distinct, existing entries) kept by every primitive operation of the algorithms, for any heap at all.
* **C59 Returned sequences behave as lists of gates** - the relation of C14 kept by every call that returns a sequence; uses the stored product known from the walks (C31, C39, C40) and `Apart` for the old sequences.
* **C60 Constructors and generators refuse exactly the wrong arguments** - by cases on the assertions, with the state unchanged.
* **C61 Compilation with clean-up and rounding** - the loop invariant of C31 with the cached product only close to that of ideal gates (C57), each step costing as many operations as gates it adds or removes.
* **C62 The library's gates with clean-up and rounding** - C56 for the constructor and for the products inside `h` and `gms`; the parameterised families follow on their whole ranges and give primitives that C61 and C63 accept.
* **C63 Verification sequences with clean-up and rounding** - the structure of C37 to C41 with C57 for the random gates, whose inverse is the target, and C61 for the compilation towards it.
* **C64 Hamiltonian sequences with clean-up and rounding** - C62 for the evolutions, C57 for products, C61 and C63 for the compilations; the label of a gate determines its ideal evolution (C50), and a run that ends early does not depend on the step limit (C32), so a budget below the fixed limit of 10000 steps says something about the whole call.
* **C65 The fidelity estimates of the paper recover the depolarisation they are made for** - finite sums.
* **C66 Bias and standard deviation of the simulated fidelity estimates** - product measure on the tape; shots are independent, variances add; the drawn index has the given probabilities (inverse of the cumulative sums).
* **C67 A compiled verification circuit returns to the initial state with the probability its distance promises** - Cauchy-Schwarz for the trace; splitting a projection off a unitary matrix; C42 and C43 for the sequences.
* **C68 The probability of every outcome of a compilation** - a calculus `HasLaw` for programs that read a tape of independent uniform numbers (the rest of the tape is independent of the result); Fisher-Yates gives every order because the probability of the draws of each order is 1/n!; C31 carries the law over to the code.
* **C69 Compilation succeeds with probability one in the long run** - powers of unitary matrices come back close to the identity (compactness), so removed gates can be compensated by further gates; total boundedness gives finitely many words that serve all circuits; each step follows a given word with probability at least a constant because the annealing parameter is capped; blocks of K steps then fail with probability at most 1 - d each.
* **C70 Verification sequences come back with probability one in the long run** - the law of `Rav.plan` by the same calculus; the words that undo all circuits up to a distance are obtained from C69's recurrence argument with the identity as goal, so they serve all random circuits at once; the negative result for t = 1 uses that pi is irrational.
* **C71 QDRIFT sequences reproduce the time evolution on average** - the draws are independent with the probabilities of C49, so the mean of P^H O P is the N-th iterate of the averaged conjugation; one step differs from the ideal conjugation by a second-order Taylor remainder, conjugations are contractions for the operator norm, hence the errors of the steps add up.
* **C72 Every program over the sequence interface, shared gates included** - as C14, with a second specification in which a gate is a numbered object and copying a list renames its objects; the references of the heap and the numbers are kept in bijection, so that `inverse()` (which inverts an object once per occurrence) acts alike on both sides. The text methods are calls of such programs as well (so C14, C57 and C72 are about programs that print in between; C57 only says that the call returns a text). `C72_looking_is_free`: calls that only look (product, length, full unitaries, texts) can be left out of a program without changing its other results, although they change the cached products.
* **C73 The noisy emulator loses each qubit's state with the stated probability and then rotates** - completeness of the Pauli matrices (the sum over the basis is the swap) turns the matrices of the emulator into maps of density matrices; loss commutes with rotations of one qubit, so losses of a one-qubit circuit can be collected. `C73_durations` and `C73_rotations` state how long each gate takes and which rotation it is.
* **C74 The JAQAL programs of the paper's experiments mean exactly the generated circuits** - a small semantics of JAQAL statements (`Spec/Jaqal`: five native gates on a register); all three matrices have determinant one, so the constructor's phase is one and equality is exact. The text of numbers stays abstract; rounding is a perturbation bound for programs with nearby numbers.
* **C75 Double precision is accurate enough** - error analysis of sums of real products in any order (induction over the tree of additions; partial sums are bounded by Cauchy-Schwarz), of which left-to-right summation and fused operations are instances; `binary64` is defined by scaling, floor and fraction, and its error bound follows from the exponent; a relative error of the determinant moves its root by at most the same relative error because the dimension divides the exponent, except at the branch cut, where the other root is reached (hence the existential in `Rounds.balance`).
* **C76 The gate sets of the examples are universal** - the Hermitian matrices whose evolutions can be approximated are closed under sums (Lie-Trotter), limits and conjugation, hence under commutators of anticommuting Pauli strings; X, Y on every qubit and XX along a connected graph give all Pauli strings, which span the Hermitian matrices; every unitary is an evolution. Irrational angles fill the circle; for H and T the product of two turns is a turn by an irrational angle. C55 and C69 carry this over to the compiler.
* **C77 Success with parametrised gates** - a calculus of lower bounds for programs that read independent uniform numbers (`Rng.Hits`: whatever is reached later with a probability at least y from the goal and x from elsewhere is reached with the mean) replaces the discrete laws of C68/C69; a random gate comes close to any gate that can be drawn because the matrix is continuous in the parameters and an interval of fractions has positive length; the errors of the gates of a word add up, and C69's finitely many words tolerate a small error. Layers are shuffled gates; a gate with angle zero is the identity, so layers are as universal as gates.
* **C78 Verification sequences with parametrised gates** - C77's calculus for the random part followed by the inversion. By C70's recurrence argument the inverse of every circuit is approached by circuits of the same gates; compactness of the unitary group makes the number of gates and the probability the same for all random circuits.
* **C79 When a time evolution can be compiled** - sufficient: a word of at most 10000 allowed evolutions strictly within the threshold (times made slightly shorter so that the half-open interval of the uniform draw contains them; then the word is proposed and accepted with positive probability). Necessary: by C51's shape theorem every result is such a word.
* **C80 Length and success of `compile_rav_sequence`** - the loop is a renewal process: `P(S_k < x) <= x^k/k!` by integrating out the first draw, and Wald's identity for the mean (`Proofs/Renewal`). The random part is identified with the tape by C52. For success: with positive probability all random gates are nearly maximal evolutions under the first subset, and as many evolutions for `-max_t_step` undo them.
* **C81, C82 The repository's own tests** - each test is a program over the model; an assertion that fails is an exception. `Rep u V k` (object `u` stores `V` up to `k` units of 1e-10 and a phase) is carried through every operation, so that `close_to` at the default tolerance is decided. Tests of sequences use the history theorem C57: the heap represents a plain list of gates, and every product is within the drift bound. This also checks the model: a wrong definition would make a test fail that passes in reality.
* **C83, C84 The tests that search** - a test is reduced to an event about the walk of its search (`Decides`, `Checks` in `Proofs/RepoCompile`), and C77, C78 bound the probability of that event. For the failures: while no proposal is made that shortens an empty sequence the walk stays where it is, which has probability one half at every step (`Metropolis.run_stuck`).
* **C85 Distance of a QDRIFT sequence** - the overlap is at least the real part of a linear function of the product; the draws are independent, so the mean of the product is the power of the mean of one factor (`integral_drawnProduct`), which is within `(L/N)^2 exp(L/N)` of the time evolution for time `t/N`; keeping the second order terms leaves the variance of the drawn terms (`qdriftVariance`) as the leading error. Markov's inequality turns the bound on the mean into one on the probability.
* **C86 Tests of Hamiltonians** - Model/TestsCompile contains the tests of tests/test_hamiltonian.py (test_two_qubits is C92); the deterministic ones are evaluated with the rounding analysis of C62-C64, the QDRIFT test with C85, the searches with the positive probabilities of C79 and C80 (two calls in a row by `stoq_then`). The Trotter test compares explicit products of 2x2 steps (Proofs/Quaternion, Proofs/RepoTrotterTest): the random one is close to the time evolution by the mean bound of C87 with the constants of this Hamiltonian, and at most one of the four orders of the first two steps makes it equal to the fixed one.
* **C87 Trotter with random order** - the orders of the steps are independent and uniform (`reshuffle`, `shuffleLaw_perm`), so the mean of the product is the power of the mean step; an order and its reverse together cancel the second order term (`norm_prod_exp_reverse_le`), and `power_overlap` uses that the real part of the overlap is quadratic in the error.
* **C88 Events** - `Rng.Meas κ m` (Proofs/Measurable) says that a random program depends measurably on the random numbers as far as `κ` of its result goes; `κ` describes gates by their operators up to a phase (`dbl A i j k l = A i j * star (A k l)`), because the code chooses a determinant root that is not a continuous function of the parameters. In C83, C84 and C86 the probability that a test passes is Mathlib's measure of a set; C89 shows that these sets are measurable.
* **C89 Passing is an event** - `PassEvent` says that the set of tapes on which a test of the repository passes is measurable. The step limit of the tests is a parameter of the modelled test, as in C83 and C84.
* **C90 Omitted arguments** - The optional arguments of the code are optional arguments of the model with the same defaults; the limit of `compile` is `np.iinfo(np.int32).max`. This includes `xx()` and `gms(n)` with the angle pi/4, `close_to` without threshold, and primitives without a list of qubits.
* **C91 Cost curves** - Model/PaperPlots is the averaging of costs in the notebooks of figures 10 and 12. Plotting and loading of data are not modelled; the fit of figure 12 is in C102. `C91_not_bucket_mean` is the negation of the expected property (the slice `i:i+bucket_size-1` leaves out the last step); `C91_values` and `C91_close_to_bucket_mean` say what holds instead.
* **C92 Test of two qubits** - `hamiltonianTwoQubits` in Model/TestsCompile is test_two_qubits. `twoQubits_law` gives the outcome as a function of the orders of the Trotter steps and of the QDRIFT draws, which are independent (`HasLaw.mixture`); the Trotter sequence is close enough by the mean bound of C87 with numerical bounds on one step, and two different sequences are apart because two orders of a step, or two choices of a QDRIFT gate, are more than 2e-8 apart. The bound 1/10 is not tight.
* **C93 The example notebook** - `notebook` in Model/Example is the program of examples/stoq_example.ipynb, with the step limit as an argument; prints are the printed values, the elapsed time is left out. The report about a search is proved for every state of a program (`Mirror`), so the second search of the notebook is an instance. For the probability, `Metropolis.Wins` says that a search succeeds with probability at least `x` *whatever comes next*, so that the second search can be put after the first.
* **C94 The same rate for all targets** - finitely many words reach every target from everywhere, because the unitary group is totally bounded and a circuit followed by a word is near `T` if the word is near `T` times the inverse of the circuit (`exists_words_all`); C77's calculus is already uniform in the target once the words are fixed. Several searches are put one after the other with `Metropolis.Wins`; the state between two of them is well-formed, exact and has a non-negative annealing value (`Between`). The strategy may use the gates found, but not the random numbers to come.
* **C95 Expected number of steps** - a walk that has reached its goal after `j` steps does not depend on its limit (`Metropolis.run_limit`), so the tail of the number of steps is bounded by the probability of failure with limit `j`; the mean is the sum of the tails. The number of steps is measurable by C88.
* **C96 The phase-flip code** - Spec/PhaseFlip defines codewords, flips and the fidelity of the last qubit without reference to the model. The meaning of `qecc_phase_flip` is that of C27; the bound for approximate circuits goes through the overlap only (`near_decoder`), so it holds for whatever sequence a compilation returns.
* **C97 The circuits of the experiments** - Model/PaperGenerate is cells 4, 5 and 11 of the notebooks in fig4/sequence-generation, as a program of a client (names of files and printing left out). The `while` loop gets a number of rounds; `outOfFuel` stands for still running, and the theorems say how likely that is. A round succeeds with positive probability because the random layers can be close to gates without effect and because every proposal on an empty sequence can be to remove gates. Bounds, steps and numbers of circuits differ between the notebooks and are arguments. C97_draws says which gates are written in terms of the random numbers, so the circuits cannot be exchanged or reused.
* **C98 Universality with small angles** - a rotation is a power of a smaller one with the same axis, so the generators of C76 are available for every positive maximal angle. `connectivity` is complete as in the notebooks.
* **C99 Counting layers** - Model/PaperCount is `get_2Q_gate_count` (fig8, fig9) and `get_layer_count` (fig5) on lists of characters, with `str.split` and the reading of line ends by `open(..., 'r')`; opening files and their names are left out. How numbers are printed is an argument of which only the absence of line breaks is assumed.
* **C100 Runs and bins** - Model/PaperBins is cell 4 and the binning in cell 9 of fig8a and fig8b (cell 7 of fig9a and fig9b) on lists of real numbers; `argsort` may return any order that sorts. The plots are left out.
* **C101 Files and data** - Model/PaperFiles is `discard_odd`, the index of a file, `files_to_list`, the ignored runs and `all_success_rates` of the notebooks of fig8 and fig9. `os.listdir` may return any order; `re.search` with the one pattern used is modelled on characters, `int` only for ASCII digits. An array is a list of circuits with a function of run and state, so that its first two axes are exchanged. Which circuit a row of the data belongs to (`measured` in Spec/PaperFiles) is read off the code and the 72 rows of the files; it is an assumption about the experiment.
* **C102 Fits** - Model/PaperFits has the three curves, the errors per layer and the reduced chi-square. `curve_fit` is SciPy: `IsFit` says that its result has the least sum of squares among all parameters that are not negative, whereas SciPy promises only a local minimum; its covariances are left out.
* **C103 Simulations** - Model/PaperSimulate is cell 1 of fig5.ipynb and the points and bins of its cell 2. Parsing and emulating a file (`parse_jaqal_string`, `run_jaqal_circuit`, from JaqalPaq) is one function from the backend and the text to probabilities, about which nothing is assumed except, where stated, that the noise mixes the output with the uniform distribution; printing and writing of results, and runs that an exception ends, are left out.
* **C104 Precision** - Model/PaperPrecision is what fig8cd.ipynb and fig9cd.ipynb compute from the records of C101: a fit for each run (`IsFit`, see C102), the losses, their spreads and ratios. `C104_other_runs` is the negation of what one would expect of the ratio.
* **C105 Groups** - Model/PaperGroups is cell 2 of fig7.ipynb without the plots, for one column at a time; `sem` is also that of fig12.ipynb. Equality of the error rates is equality of real numbers.
* **C106 Figure 3** - Model/PaperFig3 is cell 2 of fig3.ipynb without the plots, with the two formulas of C66. With `v = 1/N` the comparison of the squares is a polynomial inequality (`compare_identity`). That no distribution has the default power sums follows from the sum over four different outcomes, which would be -1/12 (`four_outcomes`).
* **C107 Precision with finitely many shots** - no new model. The variance of one shot is split into the part of the ideal output and the part of the uniform one (`shotVariance_eq`); the deviations are Chebyshev's inequality for `Rng.Estimates`.
* **C108 Repeated simulated experiments** - Model/PaperScatter is cells 6 and 8 (RAV), 12 and 14 (XEB) of the notebooks that generate figure 4, for one circuit and fraction. Every repetition is an affine function of a sum over its own block of the tape (`Block`), so that the repetitions are independent; the square of `np.std` is the mean of the squares minus the square of the mean (`scatter`).
* **C109 Figure 4** - Model/PaperFig4 is the loops of the same notebooks over circuits and fractions and cell 3 of fig4.ipynb without the plots; `theory_std_rav` and `theory_std_xeb`, which are computed but not plotted, and the loading of files are left out. Dictionaries are lists in the order of the loops. The number of random numbers that a program takes does not depend on them (`Steady`), so that every circuit and fraction has a fixed position on the tape. The comparison with the solid line is `rav_curve`.
* **C110 Figure 4 of generated circuits** - joins C97 and C109. Model/PaperFig4Circuits computes the matrices of the sequences that Model/PaperGenerate leaves with the client. In the notebooks this is done between the simulations, here before them; computing them takes no random numbers (`C110_matrices`). The simulations use their own independent uniform numbers. That no XEB circuit has a uniform output is a hypothesis of `C110_xeb`; the example shows it for circuits without layers only.
