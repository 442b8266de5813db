{"id": "C01", "title": "Unitary construction normalises without changing the operation", "statement": "Unitary(d, M) succeeds for every d>0 and every d x d unitary M; the stored matrix has determinant 1 and equals M up to a global phase. It raises when d<=0, when M is not d x d, or when M M^dagger is not close to the identity. With no matrix given, the identity is stored.", "quantifier": "every dimension d and every complex matrix M", "why_tests_cant": "tests build a handful of 2x2 and 4x4 matrices; the claim is over all matrices of all sizes", "anchors": ["stoqcompiler/unitary/unitary.py: Unitary.__init__, Unitary.identity, get_matrix, get_dimension"]}
{"id": "C02", "title": "inverse() is a two-sided inverse and an involution", "statement": "For every unitary u: u.left_multiply(u.inverse()) and u.right_multiply(u.inverse()) hold exactly the identity matrix, u.inverse().inverse() has the matrix of u, and inverse() keeps name, parameters and qubits while flipping the dagger mark.", "quantifier": "every unitary of every dimension", "why_tests_cant": "tests check one fixed and one random 2x2 matrix", "anchors": ["stoqcompiler/unitary/unitary.py: Unitary.inverse, left_multiply, right_multiply, get_display_name"]}
{"id": "C03", "title": "left_multiply/right_multiply compose in the documented order", "statement": "u.left_multiply(f) holds f*u and u.right_multiply(f) holds u*f exactly; multiplication is associative, has the identity as unit, never raises for equal dimensions, and raises for different dimensions.", "quantifier": "all pairs/triples of unitaries of every dimension", "why_tests_cant": "tests check Pauli products only", "anchors": ["stoqcompiler/unitary/unitary.py: left_multiply, right_multiply"]}
{"id": "C04", "title": "tensor() is the Kronecker product", "statement": "u.tensor(v) has dimension dim(u)*dim(v), its matrix is the Kronecker product exactly, it respects composition ((u1 u2) x (v1 v2) = (u1 x v1)(u2 x v2)), inverses, and identities.", "quantifier": "all pairs of unitaries of all dimensions", "why_tests_cant": "tests check I x I and X x X", "anchors": ["stoqcompiler/unitary/unitary.py: tensor"]}
{"id": "C05", "title": "distance_from is a phase-blind, symmetric, bi-invariant [0,1] distance", "statement": "For every u, v of equal dimension: 0 <= u.distance_from(v) <= 1; it is symmetric; it is 0 exactly when the two operations agree up to a global phase; it is unchanged when both are multiplied on the left or on the right by the same unitary, or when both are inverted; dimension mismatch raises.", "quantifier": "all unitaries of every dimension", "why_tests_cant": "an inequality and an iff over a continuum", "anchors": ["stoqcompiler/unitary/unitary.py: distance_from"]}
{"id": "C06", "title": "close_to(threshold) means overlap at least threshold", "statement": "u.close_to(v, t) holds iff the normalised overlap |tr(u^dagger v)|/d is at least t; it is antitone in t, always true for t<=0, symmetric, and for t=1 is equality up to global phase. With no threshold it holds iff the distance is at most 1e-8, so the documented 'None means 1.0' is false: 1.0 implies None but not conversely.", "quantifier": "all unitaries and all real thresholds", "why_tests_cant": "continuum of thresholds and unitaries; the gap between None and 1.0 needs a witness just inside the tolerance", "anchors": ["stoqcompiler/unitary/unitary.py: close_to", "stoqcompiler/compiler/compiler.py: Compiler.compile"]}
{"id": "C07", "title": "Constructor tolerance is not closed under multiplication", "statement": "left_multiply can raise AssertionError on two accepted unitaries of equal dimension, because the unitarity check is approximate and errors add up; it never does on exactly unitary inputs.", "quantifier": "all pairs of accepted unitaries", "why_tests_cant": "needs an accepted matrix at the edge of the tolerance", "anchors": ["stoqcompiler/unitary/unitary.py: Unitary.__init__, left_multiply"]}
{"id": "C08", "title": "Embedding a gate on chosen qubits acts on exactly those qubits in the given order", "statement": "For an entry (u, [a0..a(m-1)]) on n qubits, get_full_unitary(2^n) has, at row bits r and column bits c, the entry of u at the bits (r[a0]..r[a(m-1)]), (c[a0]..c[a(m-1)]) when r and c agree on all other qubits and 0 otherwise; qubit 0 is the most significant bit.", "quantifier": "every n, every m<=n, every duplicate-free qubit list, every unitary", "why_tests_cant": "exponentially many qubit orders and matrices; tests check CNOT on [0,1] and [1,0]", "anchors": ["stoqcompiler/unitary/unitary_sequence_entry.py: get_full_unitary, get_permute_matrix"]}
{"id": "C09", "title": "Embedding is a homomorphism; gates on disjoint qubits commute", "statement": "Embedding respects products, inverses and identity, and full unitaries of entries on disjoint qubit lists commute.", "quantifier": "every n, all qubit lists and unitaries", "why_tests_cant": "quantifies over all pairs of gates and positions", "anchors": ["stoqcompiler/unitary/unitary_sequence_entry.py: get_full_unitary"]}
{"id": "C10", "title": "get_permute_matrix is a permutation matrix for the qubit relabelling", "statement": "For every valid entry and power-of-two system dimension the returned matrix has exactly one 1 per row and column, moves bit a_k to position k and keeps the relative order of the other bits.", "quantifier": "every system size and qubit list", "why_tests_cant": "factorially many permutations", "anchors": ["stoqcompiler/unitary/unitary_sequence_entry.py: get_permute_matrix"]}
{"id": "C11", "title": "Entry and primitive constructors accept exactly the well-formed qubit lists", "statement": "UnitarySequenceEntry(u, qs) succeeds iff qs is non-empty, duplicate-free, non-negative and 2^len(qs)=dim(u); UnitaryPrimitive accepts allowed lists iff each satisfies the same; None and [] are accepted.", "quantifier": "all integer lists and unitaries", "why_tests_cant": "infinite input space", "anchors": ["stoqcompiler/unitary/unitary_sequence_entry.py: __init__", "stoqcompiler/unitary/unitary_primitive.py: __init__"]}
{"id": "C12", "title": "The full-unitary cache is invisible", "statement": "In every API history, get_full_unitary(D) on an entry returns what a fresh computation from the entry's unitary and qubits would return, including after sequences containing the entry were inverted, combined, copied or undone.", "quantifier": "every history of API calls", "why_tests_cant": "stale caches only show after particular histories", "anchors": ["stoqcompiler/unitary/unitary_sequence_entry.py: get_full_unitary, full_unitary_by_dimension", "stoqcompiler/unitary/unitary_sequence.py: inverse"]}
{"id": "C13", "title": "Systems whose dimension is not a power of two cannot host entries", "statement": "For every entry and every system dimension that is not a power of two, get_full_unitary raises (never returns a wrong matrix).", "quantifier": "all system dimensions and entries", "why_tests_cant": "infinitely many dimensions", "anchors": ["stoqcompiler/unitary/unitary_sequence_entry.py: get_full_unitary, get_permute_matrix"]}
{"id": "C14", "title": "A UnitarySequence behaves as a double-ended list under every history", "statement": "After any sequence of constructions, appends, removals, undos, product/inverse/combine/get_sequence_entries calls, each sequence's entries are those of a plain list on which the same operations were performed; removing from an empty sequence is a no-op; length matches (inverse() only of sequences whose entry objects are distinct, see C18).", "quantifier": "every history of API calls on any number of sequences", "why_tests_cant": "unbounded histories", "anchors": ["stoqcompiler/unitary/unitary_sequence.py: UnitarySequence"]}
{"id": "C15", "title": "product() is always the ordered product of the current entries", "statement": "In every history, product() returns the product of the full unitaries of the current entries with the first entry rightmost, no matter which appends, removals, undos and earlier product() calls happened: the incrementally maintained product never drifts from the entries (inverse() only of sequences whose entry objects are distinct, see C18).", "quantifier": "every history, length, dimension", "why_tests_cant": "the cached product is updated by different formulas in each operation", "anchors": ["stoqcompiler/unitary/unitary_sequence.py: product, append_first, append_last, remove_first, remove_last, undo"]}
{"id": "C16", "title": "undo() restores exactly the state before the last saving change", "statement": "After a change with save_undo=True followed by any number of changes with save_undo=False and reads, undo() restores entries and product to their values before that change; a second undo(), or an undo() with nothing saved, raises and changes nothing.", "quantifier": "every history", "why_tests_cant": "depends on interleavings of saving/non-saving changes and product() calls", "anchors": ["stoqcompiler/unitary/unitary_sequence.py: undo, _save_undo_state"]}
{"id": "C17", "title": "UnitarySequence.inverse() is the inverse sequence (when no entry object is shared)", "statement": "If no entry object occurs twice in the sequence, s.inverse() has the reversed entries with each unitary inverted, and its product (cached or recomputed from the entries) is the inverse of s.product().", "quantifier": "every sequence", "why_tests_cant": "all lengths and contents", "anchors": ["stoqcompiler/unitary/unitary_sequence.py: inverse"]}
{"id": "C18", "title": "UnitarySequence.inverse() is wrong for shared entry objects", "statement": "If one entry object occurs several times in a sequence, it is inverted once per occurrence; with an even number of occurrences the entries of s.inverse() are not inverted, and the reported product disagrees with the entries.", "quantifier": "every sequence with shared entries", "why_tests_cant": "depends on object identity, masked by the cached product", "anchors": ["stoqcompiler/unitary/unitary_sequence.py: inverse, __init__, get_sequence_entries"]}
{"id": "C19", "title": "combine() concatenates", "statement": "combine(s1..sk) has the concatenated entries and product sk...s1, for every k>=1, raises for k=0 or mismatching dimensions, and leaves its arguments unchanged.", "quantifier": "all lists of sequences", "why_tests_cant": "unbounded k and lengths", "anchors": ["stoqcompiler/unitary/unitary_sequence.py: combine"]}
{"id": "C20", "title": "Isolation: no operation changes another sequence or another entry object", "statement": "Constructing, inverting, combining, copying, appending, removing, undoing or reading one sequence never changes the entries, undo state or product of any other sequence, nor the unitary/qubits of any entry object that existed before.", "quantifier": "every history", "why_tests_cant": "aliasing bugs depend on object sharing patterns", "anchors": ["stoqcompiler/unitary/unitary_sequence.py: __init__, get_sequence_entries, inverse, combine, _save_undo_state (copy.deepcopy)"]}
{"id": "C21", "title": "Rejected entries leave a sequence untouched (power-of-two systems)", "statement": "append_first/append_last of an entry that does not fit raises AssertionError and leaves entries, undo state and product unchanged; on a power-of-two system a fitting entry is never rejected. On a non-power-of-two system a failing append leaves the entry in the list with a product that ignores it.", "quantifier": "every state and entry", "why_tests_cant": "crash points inside append", "anchors": ["stoqcompiler/unitary/unitary_sequence.py: append_first, append_last, _assert_is_entry_valid"]}
{"id": "C22", "title": "Array-backed sequences are accepted but cannot be changed or inverted", "statement": "A sequence constructed from a numpy array of entries supports length, product and combine, but append_first, append_last, inverse and (when non-empty) remove_first/remove_last always raise AttributeError.", "quantifier": "every array-backed sequence", "why_tests_cant": "input-kind dependent", "anchors": ["stoqcompiler/unitary/unitary_sequence.py: __init__, append_first, inverse"]}
{"id": "C23", "title": "Text outputs list every entry once, in order, with its qubits", "statement": "get_qasm/get_jaqal/get_display_output of a sequence consist of one header line followed by one line per entry in order; each line names the operation, its parameters in order and its qubits in order. A unitary without qubits prints on all of them.", "quantifier": "every sequence", "why_tests_cant": "all lengths and contents", "anchors": ["stoqcompiler/unitary/unitary_sequence.py: get_qasm, get_jaqal, get_display_output", "stoqcompiler/unitary/unitary.py: get_qasm, get_jaqal, get_display_name"]}
{"id": "C24", "title": "Text outputs lose inversion", "statement": "The line printed for an entry does not depend on whether its unitary is marked as an inverse: get_qasm/get_jaqal/get_display_output of s.inverse() are the reversed lines of s, although the entries are inverted.", "quantifier": "every sequence", "why_tests_cant": "universally quantified negative fact", "anchors": ["stoqcompiler/unitary/unitary_sequence_entry.py: get_full_unitary", "stoqcompiler/unitary/unitary.py: get_qasm"]}
{"id": "C25", "title": "Random parameter values are always valid", "statement": "ParameterizedUnitaryParameter.random_value() is between min_value and max_value for every draw, so is_valid accepts it; the constructor rejects empty names and max<min.", "quantifier": "all parameter ranges and all random draws", "why_tests_cant": "all random outcomes", "anchors": ["stoqcompiler/unitary/parameterized_unitary_parameter.py"]}
{"id": "C26", "title": "as_unitary validates and instantiates parameters", "statement": "as_unitary(values) raises if any value is out of range or the number of values differs from the number of parameters, and otherwise returns the matrix function applied to the values (up to phase) with the parameter names mapped to the values.", "quantifier": "all parameterised unitaries and value lists", "why_tests_cant": "all value lists", "anchors": ["stoqcompiler/unitary/parameterized_unitary.py: as_unitary"]}
{"id": "C27", "title": "Standard gates are unitary for every angle and obey their group laws", "statement": "rx, ry, rz, rphi, xx, rotation_xyz never raise for any real angle; rx/ry/rz/xx are additive in the angle and invert by negating it; rphi(theta,0)=rx, rphi(theta,pi/2)=ry; h, t, sigmax, sigmay, sigmaz, cnot, ccnot, qecc equal their textbook matrices up to global phase.", "quantifier": "all real angles", "why_tests_cant": "a continuum of angles", "anchors": ["stoqcompiler/unitary/unitary_definitions.py", "stoqcompiler/unitary/parameterized_unitary_definitions.py"]}
{"id": "C28", "title": "gms is the product of all pairwise XX gates for every qubit count", "statement": "gms(n, theta) never raises, equals the product of XX(theta) over all pairs in any order, is additive in theta, gms(2,theta)=xx(theta), and gms(n, pi/4)^4 is the identity up to phase.", "quantifier": "all n and theta", "why_tests_cant": "all qubit counts", "anchors": ["stoqcompiler/unitary/unitary_definitions.py: gms", "stoqcompiler/unitary/parameterized_unitary_definitions.py: gms"]}
{"id": "C29", "title": "time_evolution is a one-parameter unitary group", "statement": "For every Hermitian h and real s,t: time_evolution(h,t) never raises and is exp(i h t) up to a global phase, time_evolution(h,0) is exactly the identity, composing times s and t gives time s+t and inverse() gives time -t, up to a global phase in general and exactly when h is traceless (for h = diag(1,0), t = pi the stored matrices of inverse() and of time -t differ by a sign); matrices that are not close to their conjugate transpose raise AssertionError; the parameterised version accepts exactly the times of its range.", "quantifier": "all Hermitian matrices and times", "why_tests_cant": "a continuum of inputs", "anchors": ["stoqcompiler/unitary/unitary_definitions.py: time_evolution", "stoqcompiler/unitary/parameterized_unitary_definitions.py: time_evolution"]}
{"id": "C30", "title": "compile()/compile_layered() terminate within the step budget", "statement": "For every target, primitives, threshold and random outcomes, at most max_step_count steps are taken, len(cost_by_step) is the number of steps, and on return either the result is close to the target (by close_to with the given threshold) or exactly max_step_count steps were made.", "quantifier": "all inputs and all random outcomes", "why_tests_cant": "all random outcomes", "anchors": ["stoqcompiler/compiler/compiler.py: _compile, _compile_layered"]}
{"id": "C31", "title": "compile() is the Metropolis walk on gate lists", "statement": "compile() returns exactly the entries, costs and final annealing value that the textbook algorithm returns (propose add/remove at either end; accept with probability min(1, exp(-beta*dcost)); otherwise keep the list), computed on plain lists with the product recomputed from scratch each time: caching, undo and object sharing are invisible.", "quantifier": "all inputs and all random outcomes", "why_tests_cant": "histories of accept/reject/undo decisions are unbounded", "anchors": ["stoqcompiler/compiler/compiler.py: _compile, _make_random_change, _accept_proposed_change"]}
{"id": "C32", "title": "Reported costs are the distances actually reached", "statement": "len(cost_by_step) entries; each is in [0,1] and equals the distance between the target and the sequence held after that step; the last one equals target.distance_from(result.compiled_sequence.product()).", "quantifier": "all inputs and random outcomes", "why_tests_cant": "all runs", "anchors": ["stoqcompiler/compiler/compiler.py: _compile, _compile_layered"]}
{"id": "C33", "title": "compile() never fails with 'can't undo' and never raises on valid inputs", "statement": "With a power-of-two dimension, well-formed primitives fitting the system and valid probabilities, compile() never raises whatever the random outcomes; in particular a no-op removal on the empty sequence is always accepted, so undo() is only called when there is something to undo.", "quantifier": "all valid inputs and all random outcomes", "why_tests_cant": "needs rejection right after a no-op, in all runs", "anchors": ["stoqcompiler/compiler/compiler.py: _compile, _make_random_change, _accept_proposed_change", "stoqcompiler/unitary/unitary_sequence.py: undo"]}
{"id": "C34", "title": "Every compiled gate comes from the given primitives on allowed qubits", "statement": "Every entry of the compiled sequence is one of the primitives' unitaries (instantiated with in-range parameters if parameterised), applied to one of its allowed qubit lists, or to distinct qubits of the system when unrestricted.", "quantifier": "all inputs and random outcomes", "why_tests_cant": "all runs", "anchors": ["stoqcompiler/compiler/compiler.py: create_random_sequence_entry"]}
{"id": "C35", "title": "Acceptance rule: improvements are always accepted; detailed balance", "statement": "With non-negative beta a proposal whose cost does not increase is always accepted; an increase is accepted iff the uniform draw is below exp(-beta*increase); the acceptance probabilities satisfy detailed balance for exp(-beta*cost).", "quantifier": "all costs, betas and draws", "why_tests_cant": "continuum", "anchors": ["stoqcompiler/compiler/compiler.py: _accept_proposed_change"]}
{"id": "C36", "title": "Annealing schedule", "statement": "Each step raises beta by annealing_rate up to the cap (2**dimension)**2: after k steps from beta=0 it is min(k*rate, cap) for rate>=0; it never exceeds the cap and never decreases.", "quantifier": "all step counts, rates, dimensions, runs", "why_tests_cant": "unbounded number of steps", "anchors": ["stoqcompiler/compiler/compiler.py: _compile, __init__"]}
{"id": "C37", "title": "Reusing a Compiler is history dependent", "statement": "compile() does not reset the annealing parameter: a second compile() on the same Compiler starts from the value the first one ended with, and can return a different result than a fresh Compiler given the same random outcomes.", "quantifier": "pairs of compile calls", "why_tests_cant": "needs two calls with aligned random outcomes", "anchors": ["stoqcompiler/compiler/compiler.py: __init__, _compile"]}
{"id": "C38", "title": "Primitives with empty allowed lists are skipped, unless probabilities are given", "statement": "Without probabilities, primitives whose allowed list is empty are never chosen; with probabilities (one per primitive) and at least one such primitive, create_random_sequence_entry always raises ValueError.", "quantifier": "all primitive lists and random outcomes", "why_tests_cant": "universally quantified over lists", "anchors": ["stoqcompiler/compiler/compiler.py: create_random_sequence_entry"]}
{"id": "C39", "title": "Action probabilities", "statement": "For append_probability p in [0,1] the four action probabilities are non-negative, sum to 1 and the append actions have total mass p; outside [0,1] a step raises ValueError. With p=0 the compiled sequence is always empty; with p=1 no step ever removes.", "quantifier": "all p and random outcomes", "why_tests_cant": "continuum and all runs", "anchors": ["stoqcompiler/compiler/compiler.py: _make_random_change", "stoqcompiler/compiler/compiler_action.py"]}
{"id": "C40", "title": "Layered compilation keeps whole layers", "statement": "For non-negative counts, every sequence held by compile_layered is a concatenation of complete layers: its length is a multiple of the layer length and every layer block contains exactly the requested number of each primitive; a rejected layer is undone completely. With negative counts the layer-length guarantee fails.", "quantifier": "all counts, inputs and random outcomes", "why_tests_cant": "all runs", "anchors": ["stoqcompiler/compiler/compiler.py: _compile_layered, create_random_layer, _make_random_change_layered"]}
{"id": "C41", "title": "Random layers contain exactly the requested counts", "statement": "create_random_layer returns, in random order, for each primitive exactly count entries of that primitive.", "quantifier": "all count dictionaries and random outcomes", "why_tests_cant": "all shuffles", "anchors": ["stoqcompiler/compiler/compiler.py: create_random_layer"]}
{"id": "C42", "title": "RAV sequences are a random prefix followed by an approximate inverse", "statement": "generate_rav_sequence returns sequence_length random entries followed by the compiled inverse; the distance of the whole product from the identity equals the distance of the compiled part from the inverse of the random part, hence equals the last reported cost and is within the threshold whenever compilation stopped before the step budget.", "quantifier": "all inputs and random outcomes", "why_tests_cant": "all runs", "anchors": ["stoqcompiler/verification/verification.py: generate_rav_sequence"]}
{"id": "C43", "title": "Layered RAV and XEB lengths and composition", "statement": "generate_xeb_sequence returns exactly layer_count*sum(counts) entries forming complete layers, with empty cost list; generate_layered_rav_sequence returns those followed by complete compiled layers, with the same distance guarantee as RAV.", "quantifier": "all non-negative counts, inputs and random outcomes", "why_tests_cant": "all runs", "anchors": ["stoqcompiler/verification/verification.py: generate_layered_rav_sequence, generate_xeb_sequence"]}
{"id": "C44", "title": "Skipping the inverse compilation", "statement": "With threshold 0 or max_step_count 0, generate_rav_sequence returns only the random sequence and an empty cost list; threshold outside [0,1] raises AssertionError; threshold None, although documented, raises TypeError.", "quantifier": "all inputs", "why_tests_cant": "all inputs", "anchors": ["stoqcompiler/verification/verification.py: generate_rav_sequence"]}
{"id": "C45", "title": "HamiltonianTerm normalisation", "statement": "HamiltonianTerm(M) accepts every non-zero Hermitian M; get_matrix() is M; the coefficient is positive and equals the operator norm; the normalised matrix is Hermitian with norm 1. The zero matrix and non-Hermitian matrices raise.", "quantifier": "all square matrices", "why_tests_cant": "continuum", "anchors": ["stoqcompiler/hamiltonian/hamiltonian_term.py"]}
{"id": "C46", "title": "Ideal sequence reproduces the time evolution exactly", "statement": "get_ideal_sequence(t, N) has N entries and its product equals get_time_evolution_operator(t) up to global phase, for every N>=1; N=0 raises.", "quantifier": "all Hamiltonians, t, N", "why_tests_cant": "all N", "anchors": ["stoqcompiler/hamiltonian/hamiltonian.py: get_ideal_sequence, get_time_evolution_operator"]}
{"id": "C47", "title": "Trotter sequences visit every term once per step", "statement": "get_trotter_sequence(t, N) has N*len(terms) entries; each step is a permutation of the terms (the given order if not randomised), each evolved for t/N; if the terms commute the product equals the ideal evolution up to phase.", "quantifier": "all Hamiltonians, t, N, shuffles", "why_tests_cant": "all shuffles and sizes", "anchors": ["stoqcompiler/hamiltonian/hamiltonian.py: get_trotter_sequence"]}
{"id": "C48", "title": "Trotter sequences converge to the ideal evolution", "statement": "For every Hamiltonian and time the distance between the Trotter product with N steps (any order in each step) and the ideal evolution tends to 0 as N grows.", "quantifier": "all Hamiltonians, times; limit in N", "why_tests_cant": "a limit", "anchors": ["stoqcompiler/hamiltonian/hamiltonian.py: get_trotter_sequence"]}
{"id": "C49", "title": "QDRIFT samples are unbiased to first order", "statement": "get_qdrift_sequence(t, N) has N entries, each evolving a normalised term for lambda*t/N; the sampling probabilities are positive, sum to 1 and make the mean generator equal H*t/N.", "quantifier": "all Hamiltonians, t, N, random outcomes", "why_tests_cant": "all runs", "anchors": ["stoqcompiler/hamiltonian/hamiltonian.py: get_qdrift_sequence"]}
{"id": "C50", "title": "Term subsets are enumerated exactly once", "statement": "With simultaneous terms allowed the compilation primitives are the time evolutions of every non-empty subset of terms exactly once (2^k-1 of them); otherwise exactly the single terms in order.", "quantifier": "every number of terms", "why_tests_cant": "exponentially many subsets", "anchors": ["stoqcompiler/hamiltonian/hamiltonian.py: _get_term_subsets, _get_unitary_primitives"]}
{"id": "C51", "title": "STOQ time-evolution compilation respects max_t_step", "statement": "Every entry of compile_stoq_sequence evolves a (sum of) Hamiltonian term(s) for a time in [-max_t_step, max_t_step], at most 10000 steps are reported; negative max_t_step raises.", "quantifier": "all Hamiltonians and random outcomes", "why_tests_cant": "all runs", "anchors": ["stoqcompiler/hamiltonian/hamiltonian.py: compile_stoq_sequence, _compile_stoq_sequence_for_target_unitary"]}
{"id": "C52", "title": "Hamiltonian RAV: total time of the random part", "statement": "When the random part of compile_rav_sequence ends, its total absolute evolution time is at least time and below time+max_t_step, each step is within +-max_t_step, and the distance of the full product from the identity is the compiled part's cost. With max_t_step=0 and time>0 it never ends.", "quantifier": "all Hamiltonians, times and random outcomes", "why_tests_cant": "loop over random draws; non-termination", "anchors": ["stoqcompiler/hamiltonian/hamiltonian.py: compile_rav_sequence"]}
{"id": "C53", "title": "Random gates are drawn uniformly", "statement": "create_random_sequence_entry picks one of the primitives that can be placed with equal weight (or by the given probabilities), each parameter at a uniform fraction of its range, and the qubits as a uniformly drawn allowed list or, without restriction, with every list of k distinct qubits equally likely; every admissible gate (upper ends of parameter ranges excluded) can be drawn.", "quantifier": "all primitives, dimensions and random outcomes", "why_tests_cant": "a statement about the distribution over all random outcomes", "anchors": ["stoqcompiler/compiler/compiler.py: create_random_sequence_entry", "stoqcompiler/parameterized/parameterized_unitary_parameter.py: random_value"]}
{"id": "C54", "title": "Shuffles and choices without replacement are uniform", "statement": "A list of n distinct objects is brought into each order by exactly one of the n! combinations of draws; choosing k of n without replacement gives every list of k distinct objects for exactly (n-k)! of them; a random layer is such a shuffle of different new entries.", "quantifier": "all lists and random outcomes", "why_tests_cant": "a statement about the distribution over all random outcomes", "anchors": ["stoqcompiler/compiler/compiler.py: create_random_layer, create_random_sequence_entry", "stoqcompiler/hamiltonian/hamiltonian.py: get_trotter_sequence"]}
{"id": "C55", "title": "The search is complete", "statement": "For every list of gates that the primitives admit (upper ends of parameter ranges excluded), no proper prefix of which is already good enough, there are random outcomes for which compile returns exactly this list; if some list of at most m admissible gates is good enough, compile with m steps can succeed. The same for sequences of layers.", "quantifier": "all compilers, targets, gate lists", "why_tests_cant": "existence of outcomes of probability zero or close to it for every circuit", "anchors": ["stoqcompiler/compiler/compiler.py: compile, compile_layered"]}
{"id": "C56", "title": "Clean-up and rounding cost a bounded error per operation", "statement": "For every matrix arithmetic that is accurate to t (the clean-up threshold tau of the constructor, 1e-12 in the code, plus twice the rounding error of a computed entry, is at most t): the constructor accepts every unitary matrix and stores it, up to a phase, within operator-norm error 3 d t; inverse, left and right multiplication, extension to the full system and distance_from succeed on approximately stored unitaries and have explicit error bounds; k operations accumulate at most (1+step)^k - 1, which is at most 2 k step while that is small.", "quantifier": "all thresholds, rounding errors, dimensions, unitaries, error levels below the limit", "why_tests_cant": "worst case over all matrices, thresholds and rounding errors", "anchors": ["stoqcompiler/unitary/unitary.py: __init__, inverse, left_multiply, right_multiply, distance_from", "stoqcompiler/unitary/unitary_sequence_entry.py: get_full_unitary"]}
{"id": "C57", "title": "Edited sequences stay within the error budget", "statement": "Every client program that creates entries and sequences, appends, removes, undoes, inverts, combines, reads entries, lengths, products and extended entries, run with clean-up, rounded matrix arithmetic and gates stored up to an error, agrees with the ideal program on plain lists of exact gates as long as the number of operations is within the budget: the same exceptions, equal lengths, entries within the gate error plus one clean-up per inversion, products within the accumulated error (inverse only on sequences without shared entry objects, see C18).", "quantifier": "all programs, all interleavings of sequences and shared entries, all thresholds and rounding errors, all gate errors within the budget", "why_tests_cant": "unbounded programs; incremental updates and undo mix products of different histories", "anchors": ["stoqcompiler/unitary/unitary_sequence.py: append_first, append_last, remove_first, remove_last, undo, product, inverse, combine, UnitarySequenceEntry.get_full_unitary"]}
{"id": "C58", "title": "Returned sequences do not share entry objects", "statement": "A sequence returned by compile, compile_layered, a verification function (randomized analog verification, layered, cross-entropy benchmarking) or a Hamiltonian method is a new object in which no entry object occurs twice. So inverse() of it inverts every gate exactly once, unlike for sequences a client builds with one entry used twice (C18).", "quantifier": "all states of memory, all arguments, all random outcomes, all clean-up thresholds", "why_tests_cant": "object identity inside the result of random searches of any length; the visible gates do not show it", "anchors": ["stoqcompiler/compiler/compiler.py: compile, compile_layered", "stoqcompiler/verification/verification.py", "stoqcompiler/hamiltonian/hamiltonian.py", "stoqcompiler/unitary/unitary_sequence.py: combine, inverse"]}
{"id": "C59", "title": "Returned sequences behave as lists of gates under all further calls", "statement": "Programs that mix arbitrary calls on sequences with compilers, verification functions and Hamiltonians follow a machine whose sequences are plain lists of gates: every call on a sequence, made by the client or returned by the library, has the specified result and exception; a returned sequence appears as one more list and changes no other; a failing call changes none; product() and inverse() of returned sequences are right for the rest of the program.", "quantifier": "all programs on qubits without clean-up, all interleavings, all random outcomes", "why_tests_cant": "unbounded interleavings of searches and edits, with products cached inside returned sequences", "anchors": ["stoqcompiler/unitary/unitary_sequence.py", "stoqcompiler/compiler/compiler.py", "stoqcompiler/verification/verification.py", "stoqcompiler/hamiltonian/hamiltonian.py"]}
{"id": "C60", "title": "Constructors and generators refuse exactly the wrong arguments", "statement": "Hamiltonian accepts exactly non-empty lists of terms of one dimension; Compiler exactly positive dimensions with primitives that fit, and starts with annealing value 0; ParameterizedUnitary exactly positive dimensions; compile without primitives and the verification functions with negative lengths or oversized primitives raise before anything changes.", "quantifier": "all arguments, all states", "why_tests_cant": "acceptance is characterised in both directions over all arguments", "anchors": ["stoqcompiler/hamiltonian/hamiltonian.py: __init__", "stoqcompiler/compiler/compiler.py: __init__, compile", "stoqcompiler/verification/verification.py", "stoqcompiler/unitary/parameterized_unitary.py: __init__"]}
{"id": "C61", "title": "Compilation with clean-up and rounding", "statement": "For every accurate matrix arithmetic (clean-up threshold plus twice the rounding error), with primitives and target stored up to an error and the number of steps within the error budget of C56, compile and compile_layered never raise, and are a run of the walk specification on ideal unitary gates in which every measured cost is within a stated error of the exact one; a run that stops early has ideal cost good enough up to that error; with zero error these runs are exactly the walks of C31.", "quantifier": "all thresholds and rounding errors, sessions, primitives, targets, step limits within the budget and random outcomes", "why_tests_cant": "bounds accumulated error over all runs and random outcomes", "anchors": ["stoqcompiler/compiler/compiler.py: compile, compile_layered, _make_random_change", "stoqcompiler/unitary/unitary.py: __init__, close_to, distance_from"]}
{"id": "C62", "title": "The library's gates with clean-up and rounding", "statement": "For every matrix arithmetic accurate to tau (clean-up threshold plus twice the rounding error) below an explicit limit, angles up to 100 and evolutions with |t| times the norm of H up to 100: every gate in the library (rotations, xx, gms on any number of qubits, Pauli gates, t, h, cnot, ccnot, qecc, time evolution) is constructed without exception, carries its name and parameters, and up to a phase is within an explicit multiple of tau of the unitary it is documented to be; the parameterised families (xx, gms, rotation_xy, rotation_xyz, time evolution) are within such an error on their whole parameter ranges, so that primitives built from them meet the hypotheses of C61 and C63.", "quantifier": "all thresholds and rounding errors below the limit, angles and exponents up to 100, Hermitian matrices and qubit numbers", "why_tests_cant": "all angles and all Hamiltonians, and every error level", "anchors": ["stoqcompiler/unitary/unitary_definitions.py", "stoqcompiler/unitary/parameterized_unitary_definitions.py"]}
{"id": "C63", "title": "Verification sequences with clean-up and rounding", "statement": "For every accurate matrix arithmetic (clean-up threshold plus twice the rounding error), with primitives stored up to an error and with random gates and steps within the error budget of C56, generate_rav_sequence and generate_layered_rav_sequence never raise; the new sequence holds the random gates followed by the gates of a compilation run towards the inverse of the ideal random circuit with costs measured up to a stated error; its product is close to that of the ideal gates; and if compilation stopped early the ideal whole sequence is within 1 - threshold plus that error of the identity.", "quantifier": "all thresholds and rounding errors, sessions, primitives, lengths and step limits within the budget, and random outcomes", "why_tests_cant": "bounds accumulated error over all runs and random outcomes", "anchors": ["stoqcompiler/verification/verification.py: generate_rav_sequence, generate_layered_rav_sequence"]}
{"id": "C64", "title": "Hamiltonian sequences with clean-up and rounding", "statement": "For every accurate matrix arithmetic (clean-up threshold plus twice the rounding error), within the error budget of C56 and for times and step sizes which multiplied with lambda, the sum of the norms of the terms, are at most 100: get_ideal_sequence, get_trotter_sequence and get_qdrift_sequence never raise and return new sequences of evolutions stored up to an explicit error, whose products are close to the products of the ideal evolutions, with a measured distance from the time evolution operator of at most the bound of C48 plus the accumulated error; the primitives of compile_stoq_sequence can be made and each gate drawn from them is up to an error the evolution its label names; and the first K steps of compile_stoq_sequence and of the compilation in compile_rav_sequence, for any K within the budget, are a run of the specification on the ideal evolutions with costs measured up to a stated error, so that a call which ended earlier has found evolutions within 1 - threshold plus that error of their goal.", "quantifier": "all thresholds and rounding errors, Hamiltonians, times, numbers of steps within the budget, sessions and random outcomes", "why_tests_cant": "bounds accumulated error over all Hamiltonians, runs and random outcomes", "anchors": ["stoqcompiler/hamiltonian/hamiltonian.py: get_ideal_sequence, get_trotter_sequence, get_qdrift_sequence, compile_stoq_sequence, compile_rav_sequence"]}
{"id": "C65", "title": "The fidelity estimates of the paper recover the depolarisation they are made for", "statement": "For every circuit matrix and initial state, the ideal output probabilities computed in the notebooks form a distribution; mixing it with the completely mixed state in the fraction f gives a distribution; and the RAV success rate and the XEB fidelity computed from the mixed distribution both equal 1 - f exactly. The RAV rate needs the ideal probability of the initial state to differ from 1/D; the XEB fidelity needs the ideal distribution not to be uniform, and its denominator vanishes in that case only; it maps the ideal distribution to 1 and the uniform one to 0 and is affine in between.", "quantifier": "all dimensions, unitary matrices, initial states and mixed fractions", "why_tests_cant": "an identity over all distributions and fractions", "anchors": ["paper/fig5/fig5.ipynb: simulate_results_RAV, simulate_results_XEB", "paper/fig4/sequence-generation/ideal_rav_vs_xeb_simulations_2q.ipynb: cells 6 and 12"]}
{"id": "C66", "title": "Bias and standard deviation of the simulated fidelity estimates", "statement": "With K simulated shots and uniformly distributed random numbers: the RAV success rate has mean 1 - f and standard deviation exactly std_f_rav; the quantity scaled_fidelity which the notebooks simulate instead has the mean (1 - f)(Dp - 1)/(D - 1), where p is the ideal return probability, so it is biased unless p = 1, and its standard deviation is std_f_rav times the same factor; the simulated XEB fidelity has mean 1 - f, and its variance is at most the square of std_f_xeb with the power sums of the ideal probabilities, with equality only if one outcome is certain (the formula neglects that frequencies of different outcomes are correlated).", "quantifier": "all numbers of shots, dimensions, unitary matrices, initial states and mixed fractions", "why_tests_cant": "mean and variance of a random experiment over the whole probability space; a simulation shows them up to sampling error only", "anchors": ["paper/fig3/fig3.ipynb, paper/fig4/fig4.ipynb: std_f_rav, std_f_xeb", "paper/fig4/sequence-generation/ideal_rav_vs_xeb_simulations_2q.ipynb: cells 6 and 12"]}
{"id": "C67", "title": "A compiled verification circuit returns to the initial state with the probability its distance promises", "statement": "A circuit at the distance c from the identity maps a basis state to itself with probability at least (1 - c)^2 on average over all basis states, and at least (1 - d c/2)^2 for every single one if d c <= 2; rotations of one qubit attain both bounds. Hence the product of a RAV or layered RAV sequence whose compilation stopped early with threshold t returns with mean probability at least t^2, and a circuit at distance at most 0.02, as selected in the notebooks, with mean probability at least 1 - 0.04, the default error of std_f_rav.", "quantifier": "all circuits and dimensions; all sessions, primitives, lengths, thresholds, step limits and random outcomes", "why_tests_cant": "a sharp inequality over all unitary matrices", "anchors": ["stoqcompiler/verification/verification.py: generate_rav_sequence, generate_layered_rav_sequence", "stoqcompiler/unitary/unitary.py: distance_from", "paper/fig4/sequence-generation/ideal_rav_vs_xeb_simulations_2q.ipynb: cells 5 and 6", "paper/fig3/fig3.ipynb: std_f_rav"]}
{"id": "C68", "title": "The probability of every outcome of a compilation", "statement": "With independent uniform random numbers, the result of compile has exactly the distribution of the Metropolis Markov chain, written down as a probability distribution: with probability append_probability a gate is drawn (a placeable primitive uniformly or with the given weights, then one of its allowed lists uniformly or a uniformly random order of the qubits) and put at either end with equal probability, otherwise a gate is dropped from either end with equal probability; the candidate is accepted with probability min(1, exp(-beta * change of cost)); all these choices are independent. The same holds for compile_layered, where the new gates are the requested numbers of independent gates in uniformly random order.", "quantifier": "all sessions, compilers with valid parameterless primitives, targets, thresholds, step limits, and all sets of outcomes (gates and costs)", "why_tests_cant": "states the exact probability of every set of outcomes over the whole probability space", "anchors": ["stoqcompiler/compiler/compiler.py: compile, compile_layered, __compile, __make_random_change, __make_random_change_layered, create_random_sequence_entry, __create_random_layer"]}
{"id": "C69", "title": "Compilation succeeds with probability one in the long run", "statement": "If some circuit of gates that can be drawn (instances of the primitives with positive weight) is strictly better than the threshold requires, the append probability is positive and the annealing rate is not negative, then there are a positive number d and a number K, the same for all sessions, annealing values and rates, such that compile with a limit of m steps returns a sequence within the threshold with probability at least 1 - (1 - d)^floor(m/K). The same holds for compile_layered with layers in place of gates. The annealing cap is what makes this true: the acceptance probability never falls below exp(-max_beta).", "quantifier": "all valid parameterless primitives, targets, thresholds, append probabilities > 0, annealing rates >= 0, sessions and step limits", "why_tests_cant": "a bound on probabilities over all random outcomes and the limit of long runs", "anchors": ["stoqcompiler/compiler/compiler.py: compile, compile_layered, __compile, max_beta"]}
{"id": "C70", "title": "Verification sequences come back with probability one in the long run", "statement": "With independent uniform random numbers, the result of generate_rav_sequence (and the layered variant) has exactly the distribution of independent random gates followed by the Metropolis chain towards the inverse of their product. For every threshold t < 1 there are d > 0 and K, independent of the length of the random part, such that with a limit of m steps the product has overlap at least t with the identity with probability at least 1 - (1 - d)^floor(m/K). Nothing is assumed about the gates (they need not be universal or closed under inverses). For t = 1 this fails: with rotations by one radian as only gates no call ever returns exactly.", "quantifier": "all valid parameterless primitives, thresholds, append probabilities > 0, lengths of the random part, sessions and step limits", "why_tests_cant": "a bound on probabilities over all random outcomes, uniform in the length of the random circuit", "anchors": ["stoqcompiler/verification/verification.py: generate_rav_sequence, generate_layered_rav_sequence"]}
{"id": "C71", "title": "QDRIFT sequences reproduce the time evolution on average", "statement": "Over independent uniform random numbers, the mean of every observable O after the sequence of get_qdrift_sequence(t, N), i.e. the mean of P^H O P for its product P, differs from U^H O U for the time evolution U of get_time_evolution_operator(t) by at most 4 L^2/N exp(L/N) |O| with L = |t| times the sum of the largest absolute eigenvalues of the terms. The same bound holds for expected measurement values in every normalised state, and for every accuracy all large enough N give it for all observables at once.", "quantifier": "all Hamiltonians with Hermitian non-zero terms, times, repetition counts N >= 1, observables, states, sessions", "why_tests_cant": "an error bound on a mean over all random outcomes, for all Hamiltonians", "anchors": ["stoqcompiler/hamiltonian/hamiltonian.py: get_qdrift_sequence, get_time_evolution_operator"]}
{"id": "C72", "title": "Every program over the sequence interface, shared gates included", "statement": "Every program of calls to the UnitarySequenceEntry and UnitarySequence interface gets the results, exceptions and final contents of the same program over lists of numbered gate objects: append stores the very object, the constructor, get_sequence_entries, the undo state, inverse and combine store copies, and copies of one list share exactly where the list did. inverse() inverts each object once per occurrence, product() is the product of the gates that went in. Two handles, positions or saved positions hold the same object exactly if they do in the specification, and the condition of C14 (no inverse() of a sequence in which an object occurs twice) can be read off the program.", "quantifier": "all programs of calls on n-qubit gates, with any sharing of gate objects, all random tapes", "why_tests_cant": "all histories of calls and all ways of sharing objects between sequences", "anchors": ["stoqcompiler/unitary/unitary_sequence.py: UnitarySequence", "stoqcompiler/unitary/unitary_sequence_entry.py: UnitarySequenceEntry"]}
{"id": "C73", "title": "The noisy emulator loses each qubit's state with the stated probability and then rotates", "statement": "On Pauli coordinates of density matrices, gate_R of JaqalNoisyEmulator replaces the qubit by the maximally mixed state with probability 1 - (1 - depolarization)^(|angle|/(pi/2)) and then rotates it by angle + r_rotation_error*sign(angle) about the axis turned by 2 pi r_phase_error; gate_MS does the same to each of two qubits with ten times the duration; gate_Rz is exact and idle only loses. For depolarization in [0,1] states go to states. One-qubit circuits without coherent errors equal the loss over their total duration followed by the ideal circuit, so the success rate of fig. 5 is exactly (1 - depolarization)^duration. A gate followed by the gate with opposite angle has no coherent error at all, and k equal gates are over-rotated k times the error: it is not an error per pi/2 pulse as documented.", "quantifier": "all error parameters with depolarization <= 1 (>= 0 for states), angles, axes, density matrices, one-qubit circuits", "why_tests_cant": "identities between superoperators for all real angles and states", "anchors": ["paper/fig5/noisy.py: JaqalNoisyEmulator"]}
{"id": "C74", "title": "The JAQAL programs of the paper's experiments mean exactly the generated circuits", "statement": "For the gate set of the paper's notebooks (qscout_r, qscout_rz, qscout_ms on n >= 2 qubits, any maximal angle): every gate made from it is printed by get_jaqal as a native JAQAL statement whose unitary is exactly the stored matrix on the same qubits, so for every sequence of generate_rav_sequence and generate_layered_rav_sequence, in any program, the text is a valid JAQAL program whose meaning is exactly the matrix product() returns. Changing all numbers by at most delta (rounding to 7 digits) changes a program of N statements by at most 5/2 N delta in operator norm and outcome probabilities by at most 5 N delta. The library's rx, ry, rz are printed correctly too, but rphi(theta, phi) is printed with the angles of the native gate R in the wrong order: the text means rphi(phi, theta), so a half turn about x is printed as no rotation.", "quantifier": "all numbers of qubits >= 2, maximal angles, counts, layers, thresholds, random outcomes, earlier calls, number formats, angles", "why_tests_cant": "equality of a printed program's unitary with the sequence's for all random circuits and angles", "anchors": ["paper/fig4/sequence-generation/ideal_rav_vs_xeb_simulations_2q.ipynb: cell 2", "stoqcompiler/unitary/unitary.py: get_jaqal", "stoqcompiler/unitary/unitary_sequence.py: get_jaqal", "stoqcompiler/unitary/unitary_definitions.py: rphi"]}
{"id": "C75", "title": "Double precision is accurate enough", "statement": "When the matrix operations are made of real operations that are each rounded with error u (sums in any order and with any brackets, with or without fused multiply-add), and determinants, roots, elementary functions and exponentials come from libraries with error D u, then matrix arithmetic up to dimension D is accurate in the sense of C56 to the clean-up threshold plus 32 D u. Rounding to nearest in the format binary64 (ties to even, gradual underflow, no overflow) returns a representable number, none closer, leaves representable numbers alone, and has u = 2^-51 at most; so every program over the sequence interface on up to ten qubits, run in double precision, agrees with the ideal program on plain lists up to explicit errors. Some accuracy is needed: with gate matrices good to four digits rx raises an assertion error.", "quantifier": "all roundings with error u, all orders of summation, all library functions with error D u, dimensions up to 1024, all programs within the error budget", "why_tests_cant": "all matrices, all programs and all ways in which the operations may round", "anchors": ["stoqcompiler/unitary/unitary.py: __init__, left_multiply, right_multiply, tensor, distance_from", "stoqcompiler/unitary/unitary_sequence.py"]}
{"id": "C76", "title": "The gate sets of the examples are universal, so every target can be compiled", "statement": "Products of rotation_xy and xx gates, with rotations allowed on every qubit and xx on pairs that join all qubits (in either direction), come as close as desired to every unitary matrix. The same holds for fixed gates rx(a), ry(b), xx(c) whose angles are irrational multiples of pi, and for Hadamard, T and controlled not. Hence for every target and every threshold below 1 (or the default) the compiler of the examples has outcomes of its random draws with which it succeeds, for every sufficiently large step limit; and with Hadamard, T and controlled not on any qubits of a register of two or more, the probability that compile has not succeeded after m steps decreases exponentially with m.", "quantifier": "all numbers of qubits, all targets, thresholds below 1, connected couplings, weights, earlier calls", "why_tests_cant": "density of a generated group in the unitary group, for all targets and register sizes", "anchors": ["stoqcompiler/compiler/compiler.py: compile", "stoqcompiler/unitary/parameterized_unitary.py: rotation_xy, xx", "stoqcompiler/unitary/unitary_definitions.py: h, t, cnot, rx, ry, xx", "examples/stoq_example.ipynb"]}
{"id": "C77", "title": "Compilation with parametrised gates succeeds with probability tending to one exponentially", "statement": "Let the primitives be fixed gates or gates that depend continuously on parameters (up to a phase), with any admissible weights. If some circuit of gates that can be drawn is strictly better than the threshold asks for, there are a positive delta and a K, independent of the session's history, the annealing value and the annealing rate, such that compile returns a good enough sequence within m steps with probability at least 1 - (1 - delta)^floor(m/K), although every single sequence of gates has probability zero; the same holds for compile_layered with layers that can be drawn. Every gate that the specification allows to be drawn is drawn for some random numbers. All four parametrised gates of the library are continuous. Hence the compiler of the examples, with rotation_xy and xx on any qubits and positive weights, finds every target on two or more qubits up to every threshold below 1 with probability tending to one exponentially, and so does compile_layered with any positive numbers of the two gates per layer.", "quantifier": "all continuous parametrised primitives, weights, targets, thresholds, circuits, session histories, annealing rates, step limits", "why_tests_cant": "a lower bound on a probability over infinitely many real-valued draws, uniform over all reachable states of the compiler", "anchors": ["stoqcompiler/compiler/compiler.py: compile, compile_layered, _random_change, _random_change_layered", "stoqcompiler/unitary/parameterized_unitary.py", "stoqcompiler/unitary/parameterized_unitary_parameter.py: random_value", "stoqcompiler/unitary/parameterized_unitary_definitions.py: rotation_xy, rotation_xyz, xx, gms", "examples/stoq_example.ipynb"]}
{"id": "C78", "title": "Verification sequences with parametrised gates come back with probability tending to one exponentially", "statement": "Let the primitives be fixed gates or gates that depend continuously on parameters up to a phase, with any admissible weights. For every threshold t with 0 <= t < 1 there are a positive delta and a K, independent of the length of the random part and of the session's history, such that generate_rav_sequence returns a sequence whose product has overlap at least the threshold with the identity with probability at least 1 - (1 - delta)^floor(m/K), where m is the step limit; the same holds for generate_layered_rav_sequence with layers. Nothing is assumed about universality: the inverse of every random circuit is approached by circuits of the same gates. The bound is the same for every random circuit. It holds for the native gates of the library on two or more qubits.", "quantifier": "all continuous parametrised primitives, numbers of gates or layers, thresholds below 1, session histories, step limits", "why_tests_cant": "a lower bound on a probability over infinitely many real-valued random circuits, uniform over all of them", "anchors": ["stoqcompiler/verification/verification.py: generate_rav_sequence, generate_layered_rav_sequence", "stoqcompiler/compiler/compiler.py: compile, compile_layered", "stoqcompiler/unitary/parameterized_unitary.py"]}
{"id": "C79", "title": "When the compilation of a time evolution can succeed", "statement": "compile_stoq_sequence uses the evolutions under the terms (or subsets of the terms) for times up to max_t_step and stops after 10000 steps. If some word of at most 10000 such evolutions is strictly closer to the target than required, the call returns a good enough sequence with a positive probability, the same for all session histories. Conversely, whenever the call returns a good enough sequence, its gates are such a word; with max_t_step = 0 only the identity can be returned. The Trotter formula gives such words with an explicit error bound; with simultaneous terms every evolution with |t| <= 10000 max_t_step can be compiled for every threshold below one. A compiler with the same primitives and any step limit k succeeds with probability at least 1 - (1 - delta)^floor(k/K).", "quantifier": "all Hamiltonians, times, step sizes, thresholds, session histories", "why_tests_cant": "a statement about probabilities of rare events over 10000 real-valued random choices, and an impossibility for all random numbers", "anchors": ["stoqcompiler/hamiltonian/hamiltonian.py: compile_stoq_sequence", "stoqcompiler/compiler/compiler.py: compile", "stoqcompiler/unitary/parameterized_unitary.py: ParameterizedUnitaryDefinitions.time_evolution"]}
{"id": "C80", "title": "Length and success of the verification sequence of a Hamiltonian", "statement": "The random part of Hamiltonian.compile_rav_sequence is a while loop that adds random times until time is reached. With independent uniform random numbers and max_t_step > 0 the loop ends with probability one; the number of its gates exceeds k with probability at most (time/max_t_step)^k / k!, and its mean is between 2 time/max_t_step and 2 time/max_t_step + 2. With max_t_step = 0 and time > 0 it never ends. If 0 < time < 10000 max_t_step, for every threshold below one the whole call returns a sequence whose product is close enough to the identity with a positive probability, the same for all session histories.", "quantifier": "all Hamiltonians, times, step sizes, thresholds, session histories", "why_tests_cant": "the loop has no bound, so its termination is a probability-one statement; the bounds concern a distribution over infinitely many random numbers", "anchors": ["stoqcompiler/hamiltonian/hamiltonian.py: compile_rav_sequence", "stoqcompiler/compiler/compiler.py: compile"]}
{"id": "C81", "title": "The repository's tests of Unitary and ParameterizedUnitary pass", "statement": "The programs of the classes TestUnitary and TestParameterizedUnitary in tests/test_unitary.py end without an exception in every arithmetic whose operations have error at most 1.25e-12 on dimensions up to 16, which exact arithmetic and IEEE double precision do; for all values drawn by the random number generator. Exceptions: test_close_to compares a random unitary with the T gate, and fails exactly when their overlap is at least 0.999 (shown with a margin of 1e-7 under rounding); test_gms needs accuracy 1e-13 on dimension 32.", "quantifier": "all arithmetics of that accuracy, all random numbers, all number formats", "why_tests_cant": "a run of the tests is one machine, one order of summation and one random seed; it cannot show that a test with random inputs can fail, or that rounding never lets it", "anchors": ["tests/test_unitary.py: TestUnitary, TestParameterizedUnitary", "stoqcompiler/unitary/unitary.py", "stoqcompiler/unitary/parameterized_unitary.py"]}
{"id": "C82", "title": "The repository's tests of UnitarySequenceEntry and UnitarySequence pass", "statement": "The programs of the classes TestUnitarySequenceEntry and TestUnitarySequence in tests/test_unitary.py, performed on the modelled heap of objects, end without an exception in every arithmetic of the same accuracy and for every state of the random number generator.", "quantifier": "all arithmetics of that accuracy, all random generators, all number formats", "why_tests_cant": "a run of the tests is one machine and one order of summation", "anchors": ["tests/test_unitary.py: TestUnitarySequenceEntry, TestUnitarySequence", "stoqcompiler/unitary/unitary_sequence.py", "stoqcompiler/unitary/unitary_sequence_entry.py"]}
{"id": "C83", "title": "When the repository's tests of the compiler pass", "statement": "In exact arithmetic test_compile_identity passes for all random numbers and every limit on the number of steps. For test_compile_sigmaz, test_compile_two_qubits and test_compile_sigmaz_approximate, as functions of the limit m on the number of steps: the probability over the random numbers that the test passes is at least 1 - (1-d)^(m/K) for some d > 0 and K, so it tends to one, and the probability that it fails is at least 2^-m, so it is never one.", "quantifier": "all random tapes and all number formats (first part); the uniform measure on random tapes, all step limits (second part)", "why_tests_cant": "a test run is one seed; that it passes does not show how likely it is to pass", "anchors": ["tests/test_compiler.py: TestCompiler", "stoqcompiler/compiler/compiler.py: Compiler.compile"]}
{"id": "C84", "title": "When the repository's tests of verification sequences pass", "statement": "In exact arithmetic test_rav_sequence_no_inverse and test_xeb_sequence pass for all random numbers. For test_rav_sequence and test_layered_rav_sequence, as functions of the limit m on the number of steps of the compilation: the probability that the test passes is at least 1 - (1-d)^(m/K) for some d > 0 and K, and the probability that it fails is at least q 2^-m for some q > 0.", "quantifier": "all random tapes and all number formats (first part); the uniform measure on random tapes, all step limits (second part)", "why_tests_cant": "a test run is one seed; that it passes does not show how likely it is to pass", "anchors": ["tests/test_verification.py: TestVerification", "stoqcompiler/verification/verification.py"]}
{"id": "C85", "title": "QDRIFT sequences converge to the time evolution in probability", "statement": "In exact arithmetic the distance 1 - |tr(U^dagger V)|/d between the time evolution U and the product V of a QDRIFT sequence with N repetitions is a measurable function of the random numbers used, the same for all session histories. Its mean is at most L^2/N exp(L/N), where L is |t| times the sum of the largest absolute eigenvalues of the terms; it is also at most t^2/(2N) ||v|| + L^3/(3N^2) exp(L/N), where v is the matrix variance lambda sum_M M^2/lambda_M - (sum_M M)^2 of the drawn terms; the probability that it is at least e is at most the mean divided by e; and for every e, eta > 0 all large enough N give a distance below e with probability at least 1 - eta.", "quantifier": "all Hamiltonians accepted by the constructor, all times, all numbers of repetitions, all session histories, the uniform measure on random numbers", "why_tests_cant": "a statement about the distribution of the result over all random numbers, with a rate in N", "anchors": ["stoqcompiler/hamiltonian/hamiltonian.py: Hamiltonian.get_qdrift_sequence", "stoqcompiler/unitary/unitary.py: Unitary.distance_from"]}
{"id": "C86", "title": "When the unit tests of Hamiltonians pass", "statement": "Of the tests in tests/test_hamiltonian.py: those of the action enumeration, of the constructors and of simple Hermitian matrices pass, and the one comparing time evolutions passes in every fine arithmetic. In exact arithmetic the test of the ideal sequence passes for all random numbers, the QDRIFT test passes with probability at least 9/10, and the tests of compile_stoq_sequence and compile_rav_sequence pass with a positive probability. The test of Trotter sequences passes with probability at least 3/5 and fails with probability at least 2^-20, since its last assertion is false when no step is reordered.", "quantifier": "all random number sequences, the uniform measure on them, all fine arithmetics for the deterministic tests", "why_tests_cant": "running a test shows one outcome; this bounds the probability over all random numbers", "anchors": ["tests/test_hamiltonian.py", "stoqcompiler/hamiltonian/hamiltonian.py: Hamiltonian"]}
{"id": "C87", "title": "Trotter sequences with random order are an order better on average", "statement": "In exact arithmetic the distance between the time evolution and the product of a Trotter sequence with N steps whose terms are visited in random order is a measurable function of the random numbers, with values in [0,1], the same for all session histories. Its mean is at most (L^4/(2 N^3) + L^6/(18 N^4)) exp(2L/N), where L is |t| times the sum of the largest absolute eigenvalues of the terms; the probability that it is at least e is at most the mean divided by e; and for every e, eta > 0 all large enough N give a distance below e/N^2 with probability at least 1 - eta.", "quantifier": "all Hamiltonians accepted by the constructor, all times, all numbers of steps, all session histories, the uniform measure on random numbers", "why_tests_cant": "a rate of convergence of a distribution over all random orders", "anchors": ["stoqcompiler/hamiltonian/hamiltonian.py: Hamiltonian.get_trotter_sequence", "stoqcompiler/unitary/unitary.py: Unitary.distance_from"]}
{"id": "C88", "title": "The results of random compilations are events with probabilities", "statement": "In exact arithmetic, for fixed gates and gates that depend continuously on parameters, the number of gates of the result, the overlap of its product with any matrix, the number of recorded costs and the costs are measurable functions of the random numbers where compile, compile_layered, generate_rav_sequence, generate_layered_rav_sequence, compile_stoq_sequence and compile_rav_sequence return a result, and the set where they do is measurable. So success and failure of a call have probabilities that add up to one: the probability that compile or compile_layered does not find a good enough sequence within m steps, or that a verification sequence does not come back, is at most (1 - d)^floor(m/K) with d > 0 and K independent of m and the session history; and with probability one some number of steps suffices for compile.", "quantifier": "all session histories, all primitives valid for the system and continuous in their parameters, all weights, targets, thresholds and step limits, all measurable sets of results, the uniform measure on random numbers", "why_tests_cant": "measurability and probability zero sets concern uncountably many sequences of random numbers", "anchors": ["stoqcompiler/compiler/compiler.py: Compiler.compile", "stoqcompiler/compiler/compiler.py: Compiler.compile_layered", "stoqcompiler/verification/verification.py: Verification.generate_rav_sequence", "stoqcompiler/hamiltonian/hamiltonian.py: Hamiltonian.compile_rav_sequence"]}
{"id": "C89", "title": "Passing a randomised test of the repository is an event, and the tests pass eventually", "statement": "In exact arithmetic, for each of the randomised unit tests of the compiler, of verification sequences and of Hamiltonians the set of random tapes on which it passes is measurable. So the bounds of C83, C84 and C86 are bounds on true probabilities. With m steps instead of the default, the tests of the compiler and of verification sequences fail with a probability of at most (1 - d)^floor(m/K), pass with a probability of at most 1 - q/2^m, and almost every tape makes them pass for some m. The QDRIFT test fails with a probability of at most 1/10, the Trotter test with at most 2/5, and it passes with at most 1 - 1/2^20.", "quantifier": "all tapes of uniform random numbers, all step limits, all ways of printing numbers", "why_tests_cant": "a test run sees one tape; probabilities of passing concern all of them", "anchors": ["tests/test_compiler.py", "tests/test_verification.py", "tests/test_hamiltonian.py"]}
{"id": "C90", "title": "Calls without optional arguments", "statement": "A compiler made from the dimension and the primitives only appends with probability 1/2, draws the primitives uniformly, starts at inverse temperature 0 and raises it by 0.1 per step; compile with only the target runs at most 2^31 - 1 steps and stops earlier only if the product passes the test of equality up to a phase; verification sequences take at most 10000 steps; a Trotter sequence uses no random numbers and takes the terms in order in every step; a compiled sequence of a Hamiltonian consists of evolutions under single terms; unitaries are named U without parameters and time evolutions have an empty suffix.", "quantifier": "all session histories, all primitives valid for the system, all targets, Hamiltonians, times and thresholds", "why_tests_cant": "each test sees one call; that no session history changes what an omitted argument stands for concerns all of them", "anchors": ["stoqcompiler/compiler/compiler.py: Compiler.__init__", "stoqcompiler/compiler/compiler.py: Compiler.compile", "stoqcompiler/verification/verification.py: Verification.generate_rav_sequence", "stoqcompiler/hamiltonian/hamiltonian.py: Hamiltonian.get_trotter_sequence", "stoqcompiler/hamiltonian/hamiltonian.py: Hamiltonian.compile_stoq_sequence"]}
{"id": "C91", "title": "Cost curves of the paper", "statement": "The curves of figures 10 and 12 have their points at the multiples of the bucket size below the number of recorded costs. For bucket sizes of at least 2 the value at a point is the mean over the bucket without its last step (over all steps if the bucket is not full), so it is not the mean over the bucket: for every bucket size there are costs for which the value is 0 and the mean over the bucket is one over its size, which is the largest possible difference for costs between 0 and 1. With bucket size 1 all values are nan and with size 0 an exception is raised. The average curve exists exactly if there is a result and all curves have the same number of points; it is then the mean over the results at every point. For compilations of the same number of steps all curves exist and all values are between 0 and 1.", "quantifier": "all lists of costs, all bucket sizes, all numbers of results, all sessions and compilations", "why_tests_cant": "the notebooks show one data set; a mean over one step too few is not visible in a plot", "anchors": ["paper/fig10/fig10.ipynb: cell 3", "paper/fig12/fig12.ipynb: cell 3"]}
{"id": "C92", "title": "Test of a Hamiltonian of two qubits", "statement": "With exact arithmetic, the inputs of the random generators on which test_two_qubits passes are an event, its probability is at least 1/10, and the test fails with probability at least (1.5/4.6)^1000 > 0, because the QDRIFT sequence may consist of equal gates.", "quantifier": "all inputs of the random generators; all bounds on the shuffle of at least 3", "why_tests_cant": "a run of the test is one sample of its own outcome", "anchors": ["tests/test_hamiltonian.py:169-209"]}
{"id": "C93", "title": "The example notebook", "statement": "The notebook prints, for each of its two targets, the number of gates, the last cost, the number of steps and the QASM text of one and the same sequence of native gates; a search that stops early has reached its target within 1e-8; the second search continues with the annealing value of the first; reading the last cost raises IndexError exactly if the random target is within 1e-8 of the identity up to phase; the probability that both targets are reached tends to one exponentially with the number of steps.", "quantifier": "all random numbers, all unitary random targets, all step limits; the report for every compiler, target and state of a program", "why_tests_cant": "the notebook is not tested, and the failure occurs only for targets that are almost never drawn", "anchors": ["examples/stoq_example.ipynb", "stoqcompiler/compiler/compiler.py:74-110", "stoqcompiler/compiler/compiler.py:157-188"]}
{"id": "C94", "title": "The same rate of success for all targets, and several searches in a row", "statement": "With a universal set of gates (or layers) there are numbers delta > 0 and K such that every target whatever is found within m steps with probability at least 1 - (1-delta)^(m div K); a program that calls compile k times on one compiler, whose annealing goes on from call to call, with targets that may depend on all sequences found before, finds all of them with probability at least 1 - k (1-delta)^(m div K).", "quantifier": "all sessions, all targets and all ways to choose the next target from the results so far, all step limits and numbers of calls, all thresholds below 1, all universal sets of gates whose matrices depend continuously on their parameters", "why_tests_cant": "a statement about probabilities over infinitely many random numbers, uniform over a continuum of targets; tests compile one target per compiler", "anchors": ["stoqcompiler/compiler/compiler.py:74-110", "stoqcompiler/compiler/compiler.py:112-155", "stoqcompiler/compiler/compiler.py:157-188"]}
{"id": "C95", "title": "The expected number of steps", "statement": "If some circuit of gates that can be drawn is strictly better than required, the number of steps that compile records has an expectation of at most K/delta, whatever the step limit, and exceeds j with probability at most (1-delta)^(j div K); with a universal set the bound is the same for all targets; exceptions count as infinitely many steps, so almost surely none is raised; the sequence returned by compile has at most as many gates as there were steps.", "quantifier": "all sessions, step limits, thresholds below 1 and targets; parametrised gates whose matrices are continuous", "why_tests_cant": "an expectation over infinitely many random numbers, uniform in the limit", "anchors": ["stoqcompiler/compiler/compiler.py:74-110", "stoqcompiler/compiler/compiler.py:157-188"]}
{"id": "C96", "title": "qecc_phase_flip corrects phase flips", "statement": "qecc_phase_flip takes a codeword of the three-qubit phase-flip code with any set of phase flips to a product state in which the last qubit holds the encoded state if at most one qubit was flipped (and the exchanged state otherwise); combinations of no flip and single flips are corrected coherently; with independent flips of probability p the fidelity is 1 - (3p^2 - 2p^3)(1 - (2 Re(a* b))^2); a unitary at the distance c from it corrects a single flip with fidelity at least (1-4c)^2, hence so does every sequence that compile finds with threshold t >= 3/4, with fidelity at least (1-4(1-t))^2; with rotation_xy and xx such sequences are found with a probability that tends to one exponentially.", "quantifier": "all encoded states, all sets of flips, all flip probabilities, all approximations and all compilations", "why_tests_cant": "a continuum of states, errors and approximate circuits; the test compares one matrix with a table", "anchors": ["stoqcompiler/unitary/unitary_definitions.py:187-212", "tests/test_unitary.py:126-127"]}
{"id": "C97", "title": "How the circuits of the paper's experiments are generated", "statement": "The cells that generate the randomized analog verification circuits (retried until the final cost is within the bound) and the cross-entropy benchmarking circuits never raise an exception; when they end they have written the requested number of files, each a complete JAQAL program of at least the requested number of layers, and at most one more per step, of three R, three Rz and one MS with rotations of at most pi/10, whose meaning returns to the identity up to the bound (mean return probability at least (1-bound)^2), and for each a file of a random program of the same number of layers, each file being that of its own sequence; which circuits are written is determined by the random numbers alone; every loop ends with probability one, count loops within tries rounds each with probability at least (1-(1-q)^tries)^count for some q > 0; with a negative bound the first loop never ends.", "quantifier": "all random numbers, numbers of qubits from 2, layers, steps, bounds above 0 and numbers of circuits", "why_tests_cant": "the notebooks are not tested, and an unbounded while loop over random results cannot be shown to end by running it", "anchors": ["paper/fig4/sequence-generation/ideal_rav_vs_xeb_simulations_2q.ipynb", "stoqcompiler/verification/verification.py", "stoqcompiler/unitary/unitary_sequence.py"]}
{"id": "C98", "title": "The gates of the paper's experiments are universal for every maximal angle", "statement": "With R on every qubit and MS on every pair of qubits, with rotations by at most any m > 0, every unitary matrix is approximated arbitrarily well; layers of positive numbers of R and MS (and any number of Rz) make compile_layered find every target up to any threshold below 1 with a probability that tends to one exponentially with the number of steps, and so does compile with the three primitives and any positive weights; for layers the rate and a bound of the expected number of steps are the same for all targets.", "quantifier": "all numbers of qubits from 2, maximal angles above 0, targets, thresholds below 1, sessions and step limits", "why_tests_cant": "a statement about all unitary matrices and about probabilities", "anchors": ["paper/fig4/sequence-generation/ideal_rav_vs_xeb_simulations_2q.ipynb", "stoqcompiler/compiler/compiler.py:112-155"]}
{"id": "C99", "title": "The layers of the generated files are counted correctly", "statement": "get_2Q_gate_count and get_layer_count, which the analysis notebooks apply to the files of circuits, both return exactly the number of MS gates of the program when applied to the file of any valid program, and for the files that the generating notebooks write they return the number of layers, the same for a verification circuit and for the random circuit made for it, between the requested number and that number plus the number of steps; applied to the text of get_jaqal without the lines around it get_2Q_gate_count leaves out the first four gates and the last one, while get_layer_count is still right.", "quantifier": "all valid programs, all ways to write numbers on one line, all random numbers, layers, steps and bounds", "why_tests_cant": "the notebooks are not tested; unboundedly many programs", "anchors": ["paper/fig8/fig8a.ipynb", "paper/fig5/fig5.ipynb", "paper/fig4/sequence-generation/ideal_rav_vs_xeb_simulations_2q.ipynb"]}
{"id": "C100", "title": "Runs and bins of the measured data", "statement": "The notebooks cut the shots of a circuit into runs of equal size, as many as fit, and the average over the runs of the success rates (and of the cross-entropy fidelities) is exactly the rate of all shots in the runs; if every shot has one result the probabilities of a run add up to one. The points that are binned are those of all circuits and runs, each with the layer count of its own circuit, in the order of the layer counts, however argsort orders equal counts; the bins are consecutive and of equal size, each holds all runs of the same number of circuits, their positions increase, the average of their heights is that of their points, and the squared error bars are the variances divided by the numbers of points, zero exactly if all points of a bin are equal. The circuits with the largest layer counts that do not fill a bin (2 of the 50) are left out.", "quantifier": "all data, numbers of shots, runs and circuits, bin sizes and orders of equal layer counts", "why_tests_cant": "the notebooks are not tested; all data sets", "anchors": ["paper/fig8/fig8a.ipynb", "paper/fig8/fig8b.ipynb", "paper/fig9/fig9a.ipynb", "paper/fig9/fig9b.ipynb"]}
{"id": "C101", "title": "Circuit files are compared with their own data", "statement": "In the notebooks of figures 8 and 9 each of the fifty files 2_1.txt, 4_1.txt, ..., 100_1.txt, in whatever order they are listed, becomes a record with the layer count of its text and with the ideal result and the measured data of its own circuit: discard_odd keeps exactly the rows of the even numbers of the data of ibmq_manila (circuits 2 to 45, then 46, 48, ..., 100), no row is used twice, and numbers below 2 or above 101 stop at the assertion. If the frequencies of a run are those of the ideal output mixed with the uniform distribution, the success rates of figure 9 are one minus the fraction, for exactly the runs that are not ignored. A file with an odd number from 3 to 101 is not refused but compared with the data of the circuit before it, and a file with another name stops the notebook; the runs that are used are listed exactly.", "quantifier": "all data, orders of the files, contents of the files, numbers of files, runs and shots", "why_tests_cant": "the notebooks are not tested; all data and orders of files", "anchors": ["paper/fig9/fig9a.ipynb", "paper/fig9/fig9b.ipynb", "paper/fig9/fig9cd.ipynb", "paper/fig8/fig8a.ipynb", "paper/fig8/fig8b.ipynb"]}
{"id": "C102", "title": "What the fits find", "statement": "Least squares fits of the notebooks' exponential and Gaussian curves exist for all data with a layer; if all points are on a curve the fit is the parameter of the curve, and the error per layer is the error from which the points were made; points on the curve of figure 12 determine it. Fitting bins instead of points, as figure 5 does, is biased: for points on an exponential curve the error per layer is never overestimated, and underestimated as soon as a bin has circuits of different layer counts. The reduced chi-square is not negative and zero exactly if all bins are on the curve.", "quantifier": "all points, parameters, bin sizes and every parameter with the least sum of squares", "why_tests_cant": "the notebooks are not tested; all data sets", "anchors": ["paper/fig5/fig5.ipynb", "paper/fig8/fig8a.ipynb", "paper/fig9/fig9a.ipynb", "paper/fig12/fig12.ipynb"]}
{"id": "C103", "title": "What the simulations of figure 5 find", "statement": "simulate_results_RAV and simulate_results_XEB return one entry for each file, with its own layer count; with noise that mixes the ideal output with the uniform distribution by a fraction, the success rate of the entry is what the fraction leaves, for both. The points of the plot are the entries sorted by layer count. When every layer leaves the fraction 1-e, the exponential fit of the points finds exactly e as error per layer, and the fit of the bins of six, which the notebook makes, at most e and less if a bin has circuits of different layer counts and e is not 0; without noise all rates are one and the fits find no error. What is simulated is exactly the text of the file between two line ends. The argument backend of both functions is ignored in favour of a global variable.", "quantifier": "all files, emulators, noise fractions, errors per layer and parameters with the least sum of squares", "why_tests_cant": "the notebooks are not tested; all files and emulators", "anchors": ["paper/fig5/fig5.ipynb"]}
{"id": "C104", "title": "Precision of the fits in figures 8 and 9", "statement": "When in each run every layer loses a fraction of its own, the fits of the runs in figure 9(c,d) are exactly one minus these fractions, so that the reported loss is their mean over the runs that are used and the reported spread is theirs, for RAV and for XEB and whichever files there are; with Gaussian loss the error rates of figure 8(c,d) are exactly the errors of the runs. The spread does not depend on whether fidelities or losses are taken, is 0 exactly if all are equal, and scales with the numbers. The ratio of the relative spreads of XEB and RAV is 1 if both see the same losses in the same runs; since figure 9 leaves out different runs of RAV and XEB for 50 shots, equal losses in equal runs need not give 1.", "quantifier": "all losses of runs, files, texts, numbers of shots and parameters with the least sum of squares", "why_tests_cant": "the notebooks are not tested; all data", "anchors": ["paper/fig8/fig8cd.ipynb", "paper/fig9/fig9cd.ipynb"]}
{"id": "C105", "title": "Averages and error bars of figures 7 and 12", "statement": "Figure 7 shows each error rate of the table once, in the order of first appearance; each row is in exactly one group, no group is empty and the means weighted with the sizes give the sum of the column. The error bars (sem of pandas and SciPy) are the spread divided by the root of one less than the number of values, 0 exactly if all values are equal and otherwise larger than the error bars that figures 8 and 9 compute; each point is the mean and its error of the rows with its error rate; if all rows are on a curve the points are on the curve, without error bars.", "quantifier": "all tables", "why_tests_cant": "the notebooks are not tested; all tables", "anchors": ["paper/fig7/fig7.ipynb", "paper/fig12/fig12.ipynb"]}
{"id": "C106", "title": "The comparison of RAV and XEB in figure 3", "statement": "At every point of figure 3 the numbers under the roots are positive and the RAV value is below the XEB value, which is below the end of the axis; the panels have 100 points from 2 to 15 qubits, which are the values of both formulas for 100 shots in the dimension 2^n. More generally RAV is below XEB for every number of shots, dimension above 2 and error of the gates as long as the error of the compilation is at most 1/4, and this bound cannot be improved: above it XEB is more precise in all large dimensions. The power sums 1/2, 1/3 and 1/4 that the XEB curve assumes belong to no probability distribution, whatever the number of outcomes.", "quantifier": "all numbers of shots, real dimensions above 2, errors of gates and compilations, finite distributions", "why_tests_cant": "the notebook is not tested; all dimensions and errors", "anchors": ["paper/fig3/fig3.ipynb"]}
{"id": "C107", "title": "Precision of RAV and XEB with finitely many shots", "statement": "With the same shots and noise XEB is never more precise than RAV of a circuit which returns with certainty: its variance is at least the square of std_f_rav with error 0, and with noise equal to it only if an outcome is certain. Without noise such RAV has no statistical error, but XEB has none only if all possible outcomes are equally likely. The simulated experiments have the same mean and the variance of RAV is not larger. An estimate deviates by d with probability at most its variance divided by d^2, and 1/(4 d^2 h (p-1/D)^2) shots suffice to know the RAV fidelity within d except with probability h.", "quantifier": "all distributions, unitary matrices, dimensions, noise fractions, numbers of shots, deviations and probabilities", "why_tests_cant": "the notebook is not tested; statement about the probability of estimates for all circuits", "anchors": ["paper/fig4/sequence-generation/ideal_rav_vs_xeb_simulations_2q.ipynb", "paper/fig3/fig3.ipynb"]}
{"id": "C108", "title": "Standard deviations of repeated simulated experiments", "statement": "For distinct positive numbers of shots the cells that repeat the simulated RAV and XEB experiments and take np.std of the values of each number of shots never raise an exception and return one number for each. The mean of its square is 1 - 1/repetitions times the variance of one experiment, so that on average the points of figure 4 are at most std_f_rav, and strictly less than std_f_xeb if no outcome is certain.", "quantifier": "all unitary matrices, dimensions, noise fractions, lists of distinct numbers of shots, numbers of repetitions and positions of the random numbers", "why_tests_cant": "the notebook is not tested; statement about mean values over all random numbers", "anchors": ["paper/fig4/sequence-generation/ideal_rav_vs_xeb_simulations_2q.ipynb", "paper/fig4/fig4.ipynb"]}
{"id": "C109", "title": "The points and curves of figure 4", "statement": "The simulation of all circuits and mixed state fractions followed by the averaging of fig4.ipynb never raises an exception if the number of shots was simulated, and an IndexError otherwise. The raw data have one number for each circuit, whose square has the mean (1 - 1/repetitions) times the variance of one experiment with this circuit, fraction and number of shots; the point and its error bar are their mean and their standard deviation divided by the root of their number, and on average the point is at most the mean of the roots. If all circuits return with probability at least 1 - e, the RAV points are on average not above the solid line drawn for the error e. Circuits at distance at most c from the identity are below the line for the error 1 - (1 - D c/2)^2, but a distance of 0.02 does not give the return probability 0.96 of the line that is drawn. The solid lines have 50 points from the first to the last fraction, and RAV is below XEB at each of them.", "quantifier": "all lists of unitary matrices, fractions between 0 and 1, lists of distinct numbers of shots, repetitions, positions of the random numbers, errors and numbers of qubits", "why_tests_cant": "the notebook is not tested; statement about mean values over all random numbers", "anchors": ["paper/fig4/sequence-generation/ideal_rav_vs_xeb_simulations_2q.ipynb", "paper/fig4/fig4.ipynb"]}
{"id": "C110", "title": "Figure 4 for the circuits that were generated", "statement": "For the circuits that the notebooks have generated, the matrices used in the simulations are computed without an exception and without drawing random numbers; there is one for each file, in the order of the files, it is the product of that circuit's gates and unitary, and those of the RAV circuits are within the bound of the identity. Whatever random numbers the circuits were generated with, the simulated RAV points of figure 4 are on average not above the solid line for the error 1 - (1 - 2^n bound/2)^2, and the XEB points, if no circuit has a uniform output, not above the mean of the standard deviations of one experiment with each circuit.", "quantifier": "all random numbers, numbers of qubits from 2, layers, steps, rounds and numbers of circuits; for the line all bounds with 2^n bound at most 2 and (1 - 2^n bound/2)^2 above 1/2^n, fractions, shots, repetitions and initial states", "why_tests_cant": "the notebooks are not tested; statement about all generated circuits and mean values over all random numbers", "anchors": ["paper/fig4/sequence-generation/ideal_rav_vs_xeb_simulations_2q.ipynb", "paper/fig4/fig4.ipynb"]}
