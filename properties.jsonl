{"id": "C01", "title": "The generated MPO is the sum of the added terms", "statement": "After any sequence of AddTerm calls, the matrix-product operator read off MPOGenerator's (uncompressed) state machine equals the sum, over the calls, of coefficient times the product of the given on-site operators (identity elsewhere). The unchanged code violates this when the same one-site term is added again while the accumulated on-site entry equals it (the copy is silently dropped); it must hold for every sequence in which that collision does not occur.", "quantifier": "every chain length, every finite sequence of terms (any supports, coefficients, operators), every valuation of the operators", "why_tests_cant": "the set of term sequences is infinite; tests check a few small Hamiltonians by comparing matrices", "anchors": ["include/qlmps/one_dim_tn/mpo/mpogen/mpogen_impl.h:AddTerm", "include/qlmps/one_dim_tn/mpo/mpogen/mpogen_impl.h:Gen", "include/qlmps/one_dim_tn/mpo/mpogen/fsm.h:FSM::AddPath", "include/qlmps/one_dim_tn/mpo/mpogen/fsm.h:FSM::GenMatRepr", "include/qlmps/one_dim_tn/mpo/mpogen/fsm.h:FSM::CastFSMPathToMatRepr_"]}
{"id": "C02", "title": "MPO compression does not change the operator", "statement": "Gen(compress=true) and GenMatReprMPO produce a matrix-product operator with the same value as Gen(compress=false) for the same terms.", "quantifier": "every chain length >= 1 and every non-empty sequence of AddTerm calls; every valuation of coefficients and operators", "why_tests_cant": "compression rewrites symbolic matrices site by site; only sampled Hamiltonians can be compared numerically", "anchors": ["include/qlmps/one_dim_tn/mpo/mpogen/fsm.h:FSM::GenCompressedMatRepr", "include/qlmps/one_dim_tn/mpo/mpogen/symb_alg/coef_op_alg.h:SparOpReprMatColCompresser", "include/qlmps/one_dim_tn/mpo/mpogen/symb_alg/coef_op_alg.h:SparOpReprMatRowCompresser"]}
{"id": "C03", "title": "MPO compression never aborts and never takes the lossy multiplication branch", "statement": "For every Hamiltonian entered through AddTerm, compression never reaches the 'CoefReprOpReprIncompleteMulti fail' exit(1), never trips one of its assertions, and (in a release build) never overwrites a coefficient instead of multiplying it.", "quantifier": "every chain length >= 1 and every non-empty sequence of AddTerm calls", "why_tests_cant": "the guarded multiplication is partial by design ('incomplete'); that the guard is never hit is a global invariant over both passes, not a local fact", "anchors": ["include/qlmps/one_dim_tn/mpo/mpogen/symb_alg/coef_op_alg.h:CoefReprOpReprIncompleteMulti", "include/qlmps/one_dim_tn/mpo/mpogen/symb_alg/coef_op_alg.h:CalcSparOpReprMatRowLinCmb", "include/qlmps/one_dim_tn/mpo/mpogen/symb_alg/coef_op_alg.h:CalcSparOpReprMatColLinCmb"]}
{"id": "C04", "title": "Compression never increases an MPO bond dimension and keeps adjacent bonds matched", "statement": "After compression, the column count of each site matrix equals the row count of the next, no bond is wider than in the uncompressed MPO, and the two outer bonds have dimension one.", "quantifier": "every chain length and every non-empty sequence of AddTerm calls", "why_tests_cant": "a size mismatch appears only for particular Hamiltonians", "anchors": ["include/qlmps/one_dim_tn/mpo/mpogen/fsm.h:FSM::GenCompressedMatRepr", "include/qlmps/one_dim_tn/mpo/mpogen/fsm.h:FSM::CalcFSMSiteDims_"]}
{"id": "C05", "title": "State numbering of the generator is a bijection and never out of range", "statement": "For every bond, the indices assigned to the 'ready', 'final' and intermediate states by the generator are pairwise distinct and fill exactly 0..dim-1, so each term writes inside the matrices and no two different states share a row or column.", "quantifier": "every sequence of terms, every bond, all four combinations of presence of ready/final states", "why_tests_cant": "an off-by-one for one presence combination only shows on a term set that realises it", "anchors": ["include/qlmps/one_dim_tn/mpo/mpogen/fsm.h:FSM::CalcFinalStatDimIdxs_", "include/qlmps/one_dim_tn/mpo/mpogen/fsm.h:FSM::CastFSMPathToMatRepr_", "include/qlmps/one_dim_tn/mpo/mpogen/fsm.h:FSM::CalcFSMSiteDims_"]}
{"id": "C06", "title": "AddTerm does not depend on the order in which local operators are listed", "statement": "For operators on pairwise distinct sites, AddTerm(coef, ops, sites) registers the same term for every simultaneous permutation of ops and sites.", "quantifier": "every number of operators and every permutation", "why_tests_cant": "n! orders; tests sort by hand", "anchors": ["include/qlmps/one_dim_tn/mpo/mpogen/mpogen_impl.h:AddTerm"]}
{"id": "C07", "title": "Sign normalisation of operators keeps the value of the term", "statement": "AddTerm flips the sign of operators whose first non-zero element is negative and compensates in the coefficient; the registered term has the value coef times the product of the original operators.", "quantifier": "every list of operators on distinct sites, every coefficient, every pattern of signs", "why_tests_cant": "2^n sign patterns, any n", "anchors": ["include/qlmps/one_dim_tn/mpo/mpogen/mpogen_impl.h:AddTerm"]}
{"id": "C08", "title": "Insertion-operator terms place the string exactly between the physical operators", "statement": "AddTerm with uniform insertion operators produces the term whose factor is the i-th insertion operator on each site strictly between physical sites i and i+1, the physical operators on their sites, identity elsewhere. With a tail string (as many insertion as physical operators) the documented operator 'behind the last physical operator' must also be produced; the unchanged code starts the tail at the last physical site itself, and the sign normalisation of that ignored duplicate can flip the sign of the term.", "quantifier": "every number of physical operators and every ascending positions", "why_tests_cant": "sign error occurs only for insertion operators with a negative leading element and a tail string", "anchors": ["include/qlmps/one_dim_tn/mpo/mpogen/mpogen_impl.h:AddTerm"]}
{"id": "C09", "title": "Operator and coefficient labels are stable and injective", "statement": "Over any history of conversions, converting an object returns a label whose table entry equals the object, equal objects get equal labels, different objects different labels, and labels never change meaning later; label 0 of the coefficient table always denotes 1.", "quantifier": "every finite history of Convert calls", "why_tests_cant": "histories are unbounded", "anchors": ["include/qlmps/one_dim_tn/mpo/mpogen/fsm.h:LabelConvertor"]}
{"id": "C10", "title": "The sparse symbolic matrix behaves like a plain matrix under every history of edits", "statement": "After any sequence of SetElem, RemoveRow, RemoveCol, SwapTwoRows, SwapTwoCols, TransposeRows, TransposeCols with in-range arguments, reading entry (x,y) returns what the same edits on a plain two-dimensional table give; storing the null element is a no-op; no two entries ever share storage. Two matrices compare equal exactly if their plain tables are the same, whatever their histories.", "quantifier": "every matrix size and every finite history of in-range edits with permutations as transposition arguments", "why_tests_cant": "the flat index array is edited in place; aliasing only shows on particular histories", "anchors": ["include/qlmps/one_dim_tn/mpo/mpogen/symb_alg/sparse_mat.h:SparMat"]}
{"id": "C11", "title": "Symbolic coefficient and operator algebra is sound", "statement": "Coefficients or operators that compare equal realise to the same value; '+' realises to the sum; splitting an operator into a coefficient and a base realises to their product.", "quantifier": "every coefficient and operator representation and every valuation with label 0 mapped to 1", "why_tests_cant": "the representation space is infinite", "anchors": ["include/qlmps/one_dim_tn/mpo/mpogen/symb_alg/coef_op_alg.h:CoefRepr", "include/qlmps/one_dim_tn/mpo/mpogen/symb_alg/coef_op_alg.h:OpRepr", "include/qlmps/one_dim_tn/mpo/mpogen/symb_alg/coef_op_alg.h:SeparateCoefAndBase"]}
{"id": "C12", "title": "Grouping MPO columns by quantum number keeps the operator and matches the bond sectors", "statement": "Gen permutes each site matrix's columns and the next site's rows by the same permutation, so the operator is unchanged; after the permutation the columns of each quantum number are contiguous, and the list of (quantum number, dimension) sectors of the bond describes exactly these groups.", "quantifier": "every matrix without empty columns, any quantum-number group, any assignment of quantum numbers to columns", "why_tests_cant": "number of column/sector patterns is unbounded", "anchors": ["include/qlmps/one_dim_tn/mpo/mpogen/mpogen_impl.h:SortSparOpReprMatColsByQN_", "include/qlmps/one_dim_tn/mpo/mpogen/mpogen_impl.h:Gen"]}
{"id": "C13", "title": "Generating an MPO without terms is outside the contract", "statement": "Gen on a generator with no (surviving) terms must not touch memory out of bounds; the unchanged code does (bond dimension zero), so the safe domain is exactly 'at least one surviving term'.", "quantifier": "every chain length", "why_tests_cant": "undefined behaviour is not observable by a passing test", "anchors": ["include/qlmps/one_dim_tn/mpo/mpogen/fsm.h:FSM::GenCompressedMatRepr", "include/qlmps/one_dim_tn/mpo/mpogen/mpogen_impl.h:Gen"]}
{"id": "C14", "title": "Centralize establishes mixed-canonical flags for every target and history", "statement": "After Centralize(t), GetCenter() is t, every tensor left of t is flagged LEFT and every tensor right of t RIGHT; the represented state (every amplitude) is unchanged; sites whose whole outer side was already canonical are not decomposed again, and each decomposition only touches a site and its neighbour. When no tensor was replaced by LoadTen, the tensors left (right) of t really are left (right) isometries.", "quantifier": "every chain length, target, and preceding history of accesses and canonicalisations", "why_tests_cant": "the flags skip already-canonical prefixes depending on history", "anchors": ["include/qlmps/one_dim_tn/mps/finite_mps/finite_mps.h:FiniteMPS::Centralize", "include/qlmps/one_dim_tn/mps/finite_mps/finite_mps.h:FiniteMPS::LeftCanonicalize", "include/qlmps/one_dim_tn/mps/finite_mps/finite_mps.h:FiniteMPS::RightCanonicalize"]}
{"id": "C15", "title": "A canonical flag is never stale after a tensor is modified through the API", "statement": "Whenever GetTenCanoType(i) reports LEFT or RIGHT, site i has not been modified since it was decomposed. Holds for element access, canonicalisation, reversal and slot deallocation; fails in the unchanged code for LoadTen, which replaces the tensor without clearing the flag, so that a following Centralize wrongly skips the site.", "quantifier": "every history of API calls", "why_tests_cant": "needs the exact call order load-after-canonicalise", "anchors": ["include/qlmps/one_dim_tn/mps/finite_mps/finite_mps.h:FiniteMPS", "include/qlmps/one_dim_tn/framework/ten_vec.h:TenVec::LoadTen"]}
{"id": "C16", "title": "Tensor containers own each tensor exactly once", "statement": "Over any history of copies, moves, assignments, allocations and deallocations of tensor vectors, every live tensor is owned by exactly one slot and each is freed exactly once; copies are deep. Self copy-assignment in the unchanged code deletes the contents.", "quantifier": "every history over any number of containers", "why_tests_cant": "aliasing bugs are history dependent", "anchors": ["include/qlmps/one_dim_tn/framework/duovector.h:DuoVector"]}
{"id": "C17", "title": "Reversing an MPS reverses the site order and invalidates its canonical metadata", "statement": "Reverse() puts the tensor of site N-1-i at site i; the reported centre afterwards is 'uncentralised' and all flags are NONE (the code's own branch that would mirror the centre is unreachable). Reversing twice restores the site order.", "quantifier": "every chain length and every prior state", "why_tests_cant": "needs every parity of N and every centre", "anchors": ["include/qlmps/one_dim_tn/mps/finite_mps/finite_mps.h:FiniteMPS::Reverse"]}
{"id": "C18", "title": "A two-site sweep only reads files that exist and uses only up-to-date environments", "statement": "Starting from the files produced by initialisation, every load of every two-site variational sweep finds its file, every environment used in an update was computed from the current tensors of its block, no null tensor is dereferenced, and after each sweep the set of environment files is again the initial one.", "quantifier": "every chain length, every pair of boundary sites with room for one update, any number of sweeps", "why_tests_cant": "the file protocol is index arithmetic; off-by-one errors show at particular boundaries", "anchors": ["include/qlmps/algorithm/vmps/two_site_update_finite_vmps_impl.h:TwoSiteFiniteVMPSSweep", "include/qlmps/algorithm/vmps/two_site_update_finite_vmps_impl.h:LoadRelatedTensTwoSiteAlg", "include/qlmps/algorithm/vmps/two_site_update_finite_vmps_impl.h:DumpRelatedTensTwoSiteAlg"]}
{"id": "C19", "title": "After a two-site optimisation the MPS on disk is the optimised one", "statement": "When TwoSiteFiniteVMPS returns, for each site the file on disk holds the tensor of the last update that touched the site, and no tensor is left only in memory.", "quantifier": "every chain length, boundary, number of sweeps >= 0", "why_tests_cant": "stale files for one boundary site pass energy tests", "anchors": ["include/qlmps/algorithm/vmps/two_site_update_finite_vmps_impl.h:TwoSiteFiniteVMPS"]}
{"id": "C20", "title": "Environment initialisation produces exactly the environments the first sweep needs", "statement": "InitEnvs writes right environments of every length 0..N-lb-2 (and the left environment of length lb is provided by boundary setup), each computed from the tensors on disk, and leaves every tensor file untouched.", "quantifier": "every chain length and left boundary", "why_tests_cant": "index arithmetic over all lengths", "anchors": ["include/qlmps/algorithm/vmps/two_site_update_finite_vmps_impl.h:InitEnvs", "include/qlmps/algorithm/vmps/vmps_init.h:UpdateBoundaryEnvs"]}
{"id": "C21", "title": "Boundary detection stays inside the chain", "statement": "CheckAndUpdateBoundaryMPSTensors returns left/right boundaries with left + 2 <= right <= N-1 ... and never underflows, for every bond-dimension profile when the chain has at least three sites; for N = 2 the unchanged code overwrites a tensor file with an empty tensor.", "quantifier": "every chain length >= 3 and every bond-dimension profile", "why_tests_cant": "depends on the bond-dimension profile of the initial state", "anchors": ["include/qlmps/algorithm/vmps/vmps_init.h:CheckAndUpdateBoundaryMPSTensors"]}
{"id": "C22", "title": "A crash during a sweep must not silently corrupt a restart", "statement": "After a crash at any point of a two-site sweep, restarting the program must either fail cleanly or use environments consistent with the tensors on disk. The unchanged code reuses whatever environment files exist.", "quantifier": "every crash point of every sweep", "why_tests_cant": "crash points are not enumerated by tests", "anchors": ["include/qlmps/algorithm/vmps/two_site_update_finite_vmps_impl.h:TwoSiteFiniteVMPS", "include/qlmps/algorithm/vmps/vmps_init.h:NeedGenerateRightEnvs"]}
{"id": "C23", "title": "The single-site sweep respects the file protocol", "statement": "Every load finds its file, every environment used is fresh, and the environment files after the sweep are the initial ones.", "quantifier": "every chain length >= 2, any number of sweeps", "why_tests_cant": "index arithmetic over all lengths", "anchors": ["include/qlmps/algorithm/vmps/single_site_update_finite_vmps_impl.h:SingleSiteFiniteVMPSSweep", "include/qlmps/algorithm/vmps/single_site_update_finite_vmps_impl.h:LoadRelatedTensSingleSiteAlg"]}
{"id": "C24", "title": "The noised two-site sweep respects the file protocol, including the extra neighbour tensor", "statement": "As C18 for the subspace-expansion sweep, which additionally reads and modifies the next-to-next tensor.", "quantifier": "every chain length and boundaries with room, any number of sweeps", "why_tests_cant": "index arithmetic over all lengths", "anchors": ["include/qlmps/algorithm/vmps/two_site_update_noise_finite_vmps_impl.h:TwoSiteFiniteVMPSSweep", "include/qlmps/algorithm/vmps/two_site_update_noise_finite_vmps_impl.h:LoadRelatedTensTwoSiteAlgWhenNoisedRightMoving"]}
{"id": "C25", "title": "Adaptive noise stays within its configured range", "statement": "Through any sequence of expansion outcomes the running noise never becomes negative and never exceeds max(start value, max_noise); with decrease factor <= 1 it never grows except by the configured increase step.", "quantifier": "every sequence of outcomes, every admissible factor", "why_tests_cant": "sequences are unbounded", "anchors": ["include/qlmps/algorithm/vmps/two_site_update_noise_finite_vmps_impl.h", "include/qlmps/algorithm/vmps/single_site_update_finite_vmps_impl.h"]}
{"id": "C26", "title": "The DMRG executor's sweep respects the block-operator file protocol", "statement": "Each sweep of the DMRG executor reads only block operators that exist and were computed from current tensors, and restores the set of block-operator files.", "quantifier": "every chain length, boundaries, MPO bond dimensions (files per component), any number of sweeps", "why_tests_cant": "index arithmetic over all lengths and components", "anchors": ["include/qlmps/algorithm/dmrg/dmrg_impl.h:DMRGExecutor::DMRGSweep_", "include/qlmps/algorithm/dmrg/dmrg_impl.h:DMRGExecutor::LoadRelatedTensSweep_", "include/qlmps/algorithm/dmrg/dmrg_impl.h:DMRGExecutor::DumpRelatedTensSweep_"]}
{"id": "C27", "title": "A stop signal ends the DMRG run with a complete MPS on disk", "statement": "If a termination signal arrives at any moment of Execute, the run ends and every site's file on disk holds the latest tensor. The unchanged code violates this if the signal arrives between the last in-sweep check and the post-processing test.", "quantifier": "every arrival moment of the signal(s)", "why_tests_cant": "signal arrival is asynchronous; tests cannot hit every instruction", "anchors": ["include/qlmps/algorithm/dmrg/dmrg_impl.h:DMRGExecutor::Execute", "include/qlmps/algorithm/dmrg/dmrg_impl.h:DMRGExecutor::EmergencyDump"]}
{"id": "C28", "title": "Soft stop finishes the current sweep", "statement": "A soft-stop signal (SIGUSR1/2) at any moment lets the current sweep finish, performs no further sweep, and post-processing runs; without signals exactly the configured number of sweeps is performed.", "quantifier": "every arrival moment, every number of sweeps", "why_tests_cant": "asynchronous", "anchors": ["include/qlmps/algorithm/dmrg/dmrg_impl.h:DMRGExecutor::Execute"]}
{"id": "C29", "title": "TDVP evolves every bond forward and every inner site backward by exactly one time step", "statement": "One two-site TDVP sweep evolves each bond forward by total time tau and each interior site backward by total time tau, and the sequence of evolutions is a palindrome (second-order symmetric).", "quantifier": "every chain length >= 3", "why_tests_cant": "holds for the schedule as a function of N", "anchors": ["include/qlmps/algorithm/tdvp/two_site_update_finite_tdvp_impl.h:TwoSiteFiniteTDVPSweep"]}
{"id": "C30", "title": "The TDVP sweep respects the file protocol", "statement": "As C18 for the TDVP sweep, including the final half step on bond 0, which the MPI version, like its single-site evolutions, computes with another solver than its other bonds.", "quantifier": "every chain length >= 3, any number of steps", "why_tests_cant": "index arithmetic", "anchors": ["include/qlmps/algorithm/tdvp/two_site_update_finite_tdvp_impl.h:TwoSiteFiniteTDVPSweep"]}
{"id": "C31", "title": "TDVP measurement results are written once each and inside the result array", "statement": "For every step and site exactly one result cell is written, all cells are written, none out of range; the overlap measurement reads only files it wrote.", "quantifier": "every number of steps and sites", "why_tests_cant": "index arithmetic", "anchors": ["include/qlmps/algorithm/tdvp/two_site_update_finite_tdvp_impl.h:TwoSiteFiniteTDVP", "include/qlmps/algorithm/tdvp/two_site_update_finite_tdvp_impl.h:CalPsi1OpPsi2"]}
{"id": "C32", "title": "The Lanczos solver terminates within its iteration limit and stays in its arrays", "statement": "For max_iterations >= 2, whatever the residual norms and energies are, the solver returns after at most max_iterations matrix-vector products and never indexes outside its work arrays; for max_iterations 0 or 1 the unchanged code writes out of bounds.", "quantifier": "every stream of residual norms and convergence outcomes, every max_iterations, every effective dimension", "why_tests_cant": "numerical behaviour decides the exit; tests see a few", "anchors": ["include/qlmps/algorithm/vmps/lanczos_vmps_solver_impl.h:LanczosSolver", "include/qlmps/algorithm/dmrg/lanczos_dmrg_solver_impl.h", "include/qlmps/algorithm/tdvp/lanczos_expmv_solver_impl.h"]}
{"id": "C33", "title": "The Lanczos solver frees every temporary exactly once", "statement": "On every exit path every allocated basis vector except a returned one is freed exactly once; nothing is freed twice.", "quantifier": "every exit path and iteration count", "why_tests_cant": "needs every exit branch and count", "anchors": ["include/qlmps/algorithm/vmps/lanczos_vmps_solver_impl.h:LanczosFree", "include/qlmps/algorithm/vmps/lanczos_vmps_solver_impl.h:LanczosSolver"]}
{"id": "C34", "title": "Distributed contraction executes every task exactly once under every schedule", "statement": "In the master/worker contraction, under every message arrival order each task is executed by exactly one worker and its result received exactly once.", "quantifier": "every number of tasks, workers and every interleaving", "why_tests_cant": "interleavings are exponential and nondeterministic", "anchors": ["include/qlmps/algo_mpi/env_ten_update_master.h", "include/qlmps/algo_mpi/env_ten_update_slave.h", "include/qlmps/algo_mpi/vmps/lanczos_solver_mpi_master.h"]}
{"id": "C35", "title": "Distributed contraction never deadlocks and leaves no message behind", "statement": "Every maximal execution of the master/worker contraction ends with the master and all workers finished and all messages consumed.", "quantifier": "every number of tasks >= 0, workers >= 1 and every interleaving", "why_tests_cant": "deadlock needs a specific schedule", "anchors": ["include/qlmps/algo_mpi/env_ten_update_master.h", "include/qlmps/algo_mpi/env_ten_update_slave.h", "include/qlmps/algo_mpi/vmps/lanczos_solver_mpi_master.h", "include/qlmps/algo_mpi/vmps/lanczos_solver_mpi_slave.h"]}
{"id": "C36", "title": "Distributed results do not depend on the schedule", "statement": "The sum (tensor sum and overlap) computed by the master is the same for every interleaving.", "quantifier": "every interleaving, any commutative addition", "why_tests_cant": "nondeterministic", "anchors": ["include/qlmps/algo_mpi/vmps/lanczos_solver_mpi_master.h", "include/qlmps/algo_mpi/dmrg/lanczos_dmrg_solver_mpi_master.h"]}
{"id": "C37", "title": "The DMRG dynamic load-balancer assigns each Hamiltonian term exactly once and terminates", "statement": "With any number of workers (also more workers than terms), every term is computed exactly once, each worker receives exactly one stop message, and every worker's list of owned terms partitions the terms.", "quantifier": "every number of terms and workers, every interleaving", "why_tests_cant": "nondeterministic", "anchors": ["include/qlmps/algo_mpi/dmrg/lanczos_dmrg_solver_mpi_master.h", "include/qlmps/algo_mpi/dmrg/dmrg_mpi_impl_slave.h"]}
{"id": "C38", "title": "Master and worker programs agree on the order protocol", "statement": "Every sequence of orders the master can broadcast during a run is accepted by the worker's loop: each order arrives in a state where the worker expects it, and worker-side temporaries are allocated before use and freed exactly once.", "quantifier": "every run: chain length, sweeps, Lanczos iteration counts", "why_tests_cant": "depends on data-dependent iteration counts", "anchors": ["include/qlmps/algo_mpi/mps_algo_order.h", "include/qlmps/algo_mpi/vmps/two_site_update_finite_vmps_mpi_impl_master.h", "include/qlmps/algo_mpi/vmps/two_site_update_finite_vmps_mpi_impl_slave.h", "include/qlmps/algo_mpi/tdvp/two_site_update_finite_tdvp_mpi_impl_slave.h"]}
{"id": "C39", "title": "Tagged two-part replies are never mixed up", "statement": "When workers send (index, tensor) pairs and the master receives the index from any source then the tensor from that source, every tensor is stored under the index it was sent with, for every interleaving.", "quantifier": "every interleaving, any number of pairs per worker", "why_tests_cant": "nondeterministic", "anchors": ["include/qlmps/algo_mpi/dmrg/dmrg_mpi_impl_master.h", "include/qlmps/algo_mpi/dmrg/dmrg_mpi_impl_slave.h"]}
{"id": "C40", "title": "Overlapped disk threads never touch the tensors being updated", "statement": "In the MPI noised sweep, the load-ahead and dump-behind threads only touch tensors/files disjoint from those the concurrent update touches (or both only read); every interleaving comes to its end and leaves the files of the serial sweep.", "quantifier": "every chain length, boundary, position, direction and interleaving of the three threads", "why_tests_cant": "races are schedule dependent", "anchors": ["include/qlmps/algo_mpi/vmps/two_site_update_noised_finite_vmps_mpi_impl.h"]}
{"id": "C41", "title": "Sector-coverage test decides set inclusion", "statement": "IsQNCovered(a,b) answers whether every sector of b occurs in a; it is correct and in-bounds for duplicate-free non-empty inputs; with duplicates the unchanged code can read past the end.", "quantifier": "every pair of sector lists", "why_tests_cant": "needs particular hash orders", "anchors": ["include/qlmps/algorithm/vmps/two_site_update_noise_finite_vmps_impl.h:IsQNCovered"]}
{"id": "C42", "title": "Product-state initialisation puts consistent quantum numbers on every bond", "statement": "DirectStateInitMps gives adjacent tensors matching bond quantum numbers, outer bonds zero, and the total flux of the state equals the sum of the local quantum numbers, carried by site 0 (by the last site in the zero-divergence variant, whose documentation claims every tensor has zero flux). The resulting amplitudes are those of the product state; the extended initialisation keeps them, with zero padding up to the requested bond dimension.", "quantifier": "every chain length >= 2, every product state, any abelian group of quantum numbers", "why_tests_cant": "telescoping over N", "anchors": ["include/qlmps/one_dim_tn/mps/finite_mps/finite_mps_init.h:DirectStateInitMps", "include/qlmps/one_dim_tn/mps/finite_mps/finite_mps_init.h:DirectStateInitZeroDivMps"]}
{"id": "C43", "title": "Disk-based measurements leave memory empty and the disk unchanged", "statement": "MeasureOneSiteOp/MeasureTwoSiteOpGroup/MeasureFourSiteOpGroup load only existing sites, never write tensor files and leave the in-memory MPS empty. The four-site variant violates the last part for some target lists.", "quantifier": "every list of target sites", "why_tests_cant": "depends on target list", "anchors": ["include/qlmps/one_dim_tn/mps/finite_mps/finite_mps_measu_disk.h"]}
{"id": "C44", "title": "The compressing MPO product leaves the orthogonal projection of the exact product", "statement": "MpoProduct with sweeps and a bond limit succeeds for every pair of operators of the same length (N >= 3, at least one sweep): it reads only environments it wrote, the operator O' it leaves is an orthogonal projection of the exact product A B (<O', A B> = <O', O'>), the printed norm is the norm of O', bonds stay within Dmax, and the reported centre 1 and the canonical flags are true. The unchanged code, on two sites or with zero sweeps, returns the initial guess instead of the product and still reports centre 1 and canonical flags.", "quantifier": "every N, pair of operators, initial guess or empty output, number of sweeps, content of the temporary directory, and convergence decision", "why_tests_cant": "depends on all operator values and on index arithmetic of the environment files", "anchors": ["include/qlmps/one_dim_tn/mpo/finite_mpo/finite_mpo_utility.h:MpoProduct", "include/qlmps/one_dim_tn/mpo/finite_mpo/finite_mpo_utility.h:Generate3MPOEnvs"]}
{"id": "C45", "title": "Case-parameter lookups are total and defaults only replace missing keys", "statement": "ParseXOr returns the default exactly when the key is missing, a present key of the wrong type never yields the default, TryParseX never changes its output on failure, and TryParseSizeTVec rejects negative and fractional entries.", "quantifier": "every JSON object and key", "why_tests_cant": "infinite input space", "anchors": ["include/qlmps/case_params_parser.h:CaseParamsParserBasic"]}
{"id": "C46", "title": "The infinite-MPO state machine accepts every term on the unit cell", "statement": "Adding a term to the infinite-MPO state machine must create links on the unit-cell sites the term covers. The unchanged code reads the state index where it needs the site index and looks up nodes it never registered: no call with two or more operators ever succeeds, in any reachable state (each ends in std::out_of_range, an out-of-bounds access, an assertion or exit(1)).", "quantifier": "every unit-cell length, identity operators, head site and operator list, after any history of (failed, caught) calls", "why_tests_cant": "the tests only construct the class; that *no* input works is a universal statement", "anchors": ["include/qlmps/one_dim_tn/mpo/mpogen/ifsm.h:iFSM::AddPath", "include/qlmps/one_dim_tn/mpo/mpogen/fsm.h:FSMNode::Site"]}
{"id": "C47", "title": "The short AddTerm overload adds exactly the one- or two-operator term it describes", "statement": "AddTerm(coef, op1, i1) adds coef*op1 on site i1; AddTerm(coef, op1, i1, op2, i2) adds the product for either order of the two sites; with an insertion operator and i1 < i2 the operator sits exactly on the sites strictly between; the identity is on all other sites.", "quantifier": "every chain, previous history, coefficient, operators and pair of different sites (second site not 0)", "why_tests_cant": "infinitely many histories and site pairs", "anchors": ["include/qlmps/one_dim_tn/mpo/mpogen/mpogen_impl.h:AddTerm"]}
{"id": "C48", "title": "The inner product function computes the inner product", "statement": "FiniteMPSInnerProd(bra, ket) equals the sum over all spin configurations of conj(amplitude of bra) * amplitude of ket; swapping the arguments conjugates the value. Chains of different lengths or with bonds that do not fit end in an assertion or undefined behaviour, never in a wrong number.", "quantifier": "every pair of MPS of equal length with matching physical legs and trivial outer bonds", "why_tests_cant": "a claim about all tensors of all sizes", "anchors": ["include/qlmps/one_dim_tn/mps/finite_mps/finite_mps_ops.h:FiniteMPSInnerProd"]}
{"id": "C49", "title": "Adding two MPS adds their amplitudes", "statement": "After FiniteMPSAdd(a, b, c) every amplitude of c is the sum of those of a and b. The unchanged code violates it for a single site, and when the result object is one of the arguments.", "quantifier": "every pair of MPS of equal length >= 2 with trivial outer bonds", "why_tests_cant": "a claim about all tensors of all sizes", "anchors": ["include/qlmps/one_dim_tn/mps/finite_mps/finite_mps_ops.h:FiniteMPSAdd"]}
{"id": "C50", "title": "In-memory one-site measurements return expectation values for every site and keep the state", "statement": "MeasureOneSiteOp(mps, ops) returns, for each operator and each site, the expectation value of the operator on this site in the state the MPS held before, and the MPS represents the same state afterwards.", "quantifier": "every history of calls on the MPS, operator list and chain length", "why_tests_cant": "infinitely many histories, states and sizes", "anchors": ["include/qlmps/one_dim_tn/mps/finite_mps/finite_mps_measu_memory.h:MeasureOneSiteOp"]}
{"id": "C51", "title": "In-memory multi-site measurements return the expectation value of the described string", "statement": "MeasureMultiSiteOp (and the two-site form) returns for each event with strictly increasing sites the expectation value of the product of the operators on their sites, the insertion strings between them and the identity elsewhere. Events with a repeated site pass the order check but fail later.", "quantifier": "every history of calls on the MPS, every event list", "why_tests_cant": "infinitely many histories, states, site lists", "anchors": ["include/qlmps/one_dim_tn/mps/finite_mps/finite_mps_measu_memory.h:MeasureMultiSiteOp", "include/qlmps/one_dim_tn/mps/finite_mps/finite_mps_measu_memory.h:MeasureTwoSiteOp", "include/qlmps/one_dim_tn/mps/finite_mps/finite_mps_measu_memory.h:MultiSiteOpAvg"]}
{"id": "C52", "title": "Disk-based measurements return expectation values", "statement": "The disk-based MeasureOneSiteOp (all sites, selected ascending sites), MeasureTwoSiteOpGroup and MeasureFourSiteOpGroup return for a right-canonical MPS on disk the expectation values of the described operator strings, in the order of the targets.", "quantifier": "every right-canonical MPS directory with centre 0, every list of admissible targets, every operator", "why_tests_cant": "infinitely many states and target lists; the running contraction is shared between targets", "anchors": ["include/qlmps/one_dim_tn/mps/finite_mps/finite_mps_measu_disk.h:MeasureOneSiteOp", "include/qlmps/one_dim_tn/mps/finite_mps/finite_mps_measu_disk.h:MeasureTwoSiteOpGroup", "include/qlmps/one_dim_tn/mps/finite_mps/finite_mps_measu_disk.h:MeasureFourSiteOpGroup"]}
{"id": "C53", "title": "Environments taken over from an earlier run belong to the current MPS", "statement": "Several runs of a two-site optimisation with boundary detection share a temporary directory. Each run takes over the right environments it finds. They must be those of the MPS that is then on disk. True as long as no run has a larger range of sites than the one before (Dmax never decreases); the unchanged code uses stale environments when a run with smaller Dmax follows one with larger Dmax.", "quantifier": "every chain length, every sequence of runs, any number of sweeps per run", "why_tests_cant": "needs a history of at least three runs with different bond dimensions; the wrong environments still have the right shapes", "anchors": ["include/qlmps/algorithm/vmps/vmps_init.h:NeedGenerateRightEnvs", "include/qlmps/algorithm/vmps/vmps_init.h:FiniteVMPSInit"]}
{"id": "C54", "title": "A crash in a single-site or noised sweep never leaves a stale environment", "statement": "If SingleSiteFiniteVMPS or TwoSiteFiniteVMPSWithNoise is killed at any moment of its sweeps, then whenever all tensor files of the MPS are complete, every complete environment file in the temporary directory of the swept range is the environment of exactly those tensors. A restart of SingleSiteFiniteVMPS on an existing temporary directory either stops at a missing or incomplete file or performs exact sweeps on the MPS on disk.", "quantifier": "all chain lengths, tensors, numbers of sweeps, kill points (including a torn write) and later runs", "why_tests_cant": "A test can kill the program at a few moments; the claim is about every prefix of the file operations and every incomplete write.", "anchors": ["/repo/include/qlmps/algorithm/vmps/single_site_update_finite_vmps_impl.h:SingleSiteFiniteVMPS", "/repo/include/qlmps/algorithm/vmps/two_site_update_noise_finite_vmps_impl.h:TwoSiteFiniteVMPSWithNoise"]}
{"id": "C55", "title": "Restart of the programs that begin with FiniteVMPSInit after a crash", "statement": "After the sweeps of the MPI two-site program or of TwoSiteFiniteVMPSWithNoise were killed at any moment, calling it again on the same directories, with boundary sites enclosing the same range or a smaller one, either stops at the load of a missing or incomplete file or finds all tensor files complete and performs exact sweeps on the MPS they form. (A crash inside FiniteVMPSInit itself is different: it can leave complete files of an MPS that is a different state.)", "quantifier": "all chain lengths >= 3, ranges, tensors, numbers of sweeps, kill points and nested later ranges", "why_tests_cant": "The right environments are only regenerated if a file is missing; a test sees a few crash points, the claim covers all of them.", "anchors": ["/repo/include/qlmps/algorithm/vmps/vmps_init.h:FiniteVMPSInit,NeedGenerateRightEnvs", "/repo/include/qlmps/algo_mpi/vmps/two_site_update_finite_vmps_mpi_impl_master.h:TwoSiteFiniteVMPS"]}
{"id": "C56", "title": "The returned energy is that of the last update", "statement": "SingleSiteFiniteVMPS and TwoSiteFiniteVMPSWithNoise return the energy of the very last update of the last sweep. With zero sweeps the unchanged code returns an uninitialised value.", "quantifier": "every chain length, number of sweeps and sequence of update outcomes", "why_tests_cant": "The claim is about every history of updates; a test compares one energy.", "anchors": ["/repo/include/qlmps/algorithm/vmps/single_site_update_finite_vmps_impl.h:SingleSiteFiniteVMPS", "/repo/include/qlmps/algorithm/vmps/two_site_update_noise_finite_vmps_impl.h:TwoSiteFiniteVMPSWithNoise"]}
{"id": "C57", "title": "The Lanczos solver returns the best state of the Krylov space it has built", "statement": "For a Hermitian effective Hamiltonian H and a non-zero initial vector v the ground-state solver returns (exact arithmetic) a unit vector of the space spanned by v, Hv, ..., H^(n-1)v, where n is the reported number of iterations and at most max_iterations; the returned energy is the expectation value of H in it; no vector of this space, in particular the initial one, has a lower expectation value; if the space cannot grow the vector is an exact eigenvector.", "quantifier": "every Hermitian H, non-zero initial vector, max_iterations >= 2, tolerance and dimension, real or complex", "why_tests_cant": "A claim about all operators and vectors of all dimensions; tests diagonalise a few.", "anchors": ["/repo/include/qlmps/algorithm/vmps/lanczos_vmps_solver_impl.h:LanczosSolver,TridiagGsSolver"]}
{"id": "C58", "title": "The time-evolution solver conserves norm and energy and is exact in invariant Krylov spaces", "statement": "For a Hermitian effective Hamiltonian H, a non-zero state v and a time step d, LanczosExpmvSolver returns (exact arithmetic) a vector with the norm and the energy of v; if the Krylov space it has built cannot grow, the vector is exp(-i d H) v. The MPI version drops the norm of v and always returns a unit vector.", "quantifier": "every Hermitian H, non-zero state, step, max_iterations >= 2, tolerance and dimension", "why_tests_cant": "A claim about all operators and vectors of all dimensions; tests evolve a few.", "anchors": ["/repo/include/qlmps/algorithm/tdvp/lanczos_expmv_solver_impl.h:LanczosExpmvSolver,TridiagExpme1Solver,Distance", "/repo/include/qlmps/algo_mpi/tdvp/lanczos_expmv_solver_mpi.h:MasterLanczosExpmvSolver"]}
{"id": "C59", "title": "TDVP starts from the operator applied to the stored state, in canonical form", "statement": "With an empty MPS object and the files of an MPS on disk, the preparation step of a two-site TDVP run rewrites the files so that they represent the local operator at site_0 (with the string operator on all sites before it) applied to the stored state; sites 1..site_0 become right-canonical, later files are untouched, and no tensor stays in memory.", "quantifier": "every MPS, every pair of operators, every site_0 (local_op_corr on)", "why_tests_cant": "the represented state is an exponentially large vector and the QR factors are arbitrary", "anchors": ["include/qlmps/algorithm/tdvp/two_site_update_finite_tdvp_impl.h:ActOperatorOnMps", "include/qlmps/algorithm/tdvp/two_site_update_finite_tdvp_impl.h:TwoSiteFiniteTDVP", "include/qlmps/one_dim_tn/mps/finite_mps/finite_mps.h:RightCanonicalizeTen"]}
{"id": "C61", "title": "A DMRG executor can be executed again", "statement": "After Execute() of the DMRG executor returned, calling Execute() on the same object again performs the same computation on the files that are then on disk. (Violated by the unchanged code: post-processing leaves tensors in memory, the second call fails the assertion that the MPS object is empty.)", "quantifier": "every chain length and configuration", "why_tests_cant": "the second call depends on the whole state left by the first", "anchors": ["include/qlmps/algorithm/dmrg/dmrg_impl.h:Execute,DMRGPostProcess_"]}
{"id": "C63", "title": "The terms handed to a DMRG worker arrive complete and unmixed", "statement": "When the DMRG master sends a task number and the groups of Hamiltonian terms that belong to it, as many separate tensor messages whose tags coincide, the worker holds exactly the groups that were sent, and with at most as many operators as workers operator i is computed from the terms of operator i and stored as operator i.", "quantifier": "every number and size of groups, every rank, every interleaving, buffered or synchronous sends", "why_tests_cant": "tag collisions only matter for particular ranks, sizes and arrival orders", "anchors": ["include/qlmps/algo_mpi/dmrg/dmrg_mpi_impl_master.h: SendBlockSiteHamiltonianTermGroup_, SendSiteBlockHamiltonianTermGroup_, InitUpdateRightBlockOps_", "include/qlmps/algo_mpi/dmrg/dmrg_mpi_impl_slave.h: RecvBlockSiteHamiltonianTermGroup_, RecvSiteBlockHamiltonianTermGroup_, UpdateRightBlockOpsSlave_"]}
{"id": "C64", "title": "The MPI noised program can be called again on the same MPS object", "statement": "After TwoSiteFiniteVMPSWithNoise (MPI version) returned, calling it again with the same MPS object works on the files then on disk, as with the serial version, which leaves the object empty. (Violated by the unchanged code: NoisedVMPSPostProcess dumps without releasing, the next call fails the assertion that the MPS object is empty.)", "quantifier": "every chain length, configuration and interleaving of the threads", "why_tests_cant": "depends on the whole state left by the first call, in every schedule", "anchors": ["include/qlmps/algo_mpi/vmps/two_site_update_noised_finite_vmps_mpi_impl.h:NoisedVMPSPostProcess,MasterTwoSiteFiniteVMPSWithNoise"]}
{"id": "C65", "title": "Finite matrix product operators compute operator algebra, and their flags are true", "statement": "For matrix product operators with a tensor at every site: the product without compression is the matrix product of the two operators in the given order; the generated identity is the identity; scaling multiplies the operator; the sum, also of an object with itself, is the sum; the trace is the trace; Centralize keeps the operator; Normalize returns n and leaves O' with n O' = O, of Frobenius norm one when the object is centralised; Dump followed by Load gives the same object; and after every history of calls a tensor reported as left or right canonical is one and a reported centre is the centre.", "quantifier": "every chain length, bond dimensions, tensor values, physical space, every history of calls on one object, every decomposition routine meeting its specification", "why_tests_cant": "Unit tests compare a few operators on a few sites; the statement is about all tensors and all call histories, including stale flags left by earlier calls.", "anchors": ["include/qlmps/one_dim_tn/mpo/finite_mpo/finite_mpo.h: FiniteMPO::{operator+=, operator*=, Scale, Normalize, Trace, Centralize, LeftCanonicalize, RightCanonicalize, Dump, Load, GetCenter, GetTenCanoType}", "include/qlmps/one_dim_tn/mpo/finite_mpo/finite_mpo_utility.h: MpoProduct, GenerateIdentityMPO, MpoAllScale"]}
{"id": "C66", "title": "Truncating a matrix product operator is an orthogonal projection with the printed weight", "statement": "After any history of calls that keep the flags, FiniteMPO::Truncate on two or more sites leaves an operator O' that is an orthogonal projection of the old operator O: <O,O'> = <O',O'>, so ||O-O'||^2 = ||O||^2 - ||O'||^2, and ||O'||^2 is ||O||^2 times the product of (1 - e) over the N-1 printed truncation errors (hence ||O-O'||^2 is at most the sum of the printed errors times ||O||^2). No inner bond exceeds the limit, the first tensor is unflagged, all others are reported right-canonical and are, and the centre is -1. Fewer than two sites: assertion failure.", "quantifier": "every chain length, tensors, physical space, every history of calls, every truncated SVD meeting its specification", "why_tests_cant": "the error bound is about all operators and all truncation patterns; a test checks a few numbers", "anchors": ["include/qlmps/one_dim_tn/mpo/finite_mpo/finite_mpo.h:FiniteMPO::Truncate,RightCanonicalizeTen_,Centralize"]}
{"id": "C67", "title": "TruncateMPS leaves a normalised state with the printed fidelity", "statement": "After any history of calls without LoadTen, TruncateMPS of a non-zero state psi on two or more sites leaves a state phi of norm one with |<phi|psi>|^2 = <psi|psi> times the product of (1 - e) over the N-1 printed truncation errors; no inner bond exceeds the limit, every tensor but the last is a left isometry, all flags read NONE and the centre is -1. Fewer than two sites: assertion failure.", "quantifier": "every chain length, tensors, physical space, every history of calls, every truncated SVD meeting its specification that does not discard everything", "why_tests_cant": "fidelity of an exponentially large vector, for all states", "anchors": ["include/qlmps/one_dim_tn/mps/finite_mps/finite_mps.h:TruncateMPS,Centralize"]}
{"id": "C68", "title": "ExpFiniteMPO returns the Taylor series of exp(-tau H)", "statement": "ExpFiniteMPO(H, tau, max_taylor_order, ...) follows the exponential series of -tau H; every product and every sum may only be replaced by an orthogonal projection of it. It returns a number and an operator whose product is the partial sum up to order max_taylor_order - 1 or up to the first even order with a small trace; the printed traces and the dumped directories are those of the terms. With no compression and all printed truncation errors zero the result is the Taylor polynomial exactly. The unchanged code, on two sites or with no sweeps, uses -tau H/2 as the term of second order whenever D(H)^2 > Dmax.", "quantifier": "every Hamiltonian, tau, order, tolerance, Dmax, number of sweeps and files left by earlier runs", "why_tests_cant": "depends on all operator values, on the compression taken at each order and on files found on disk", "anchors": ["include/qlmps/one_dim_tn/mpo/finite_mpo/exp_finite_mpo.h:ExpFiniteMPO", "include/qlmps/one_dim_tn/mpo/finite_mpo/finite_mpo_utility.h:MpoProduct"]}
{"id": "C69", "title": "The predefined Hubbard operators and hopping terms are the fermion operators they are named after", "statement": "On every site of every chain and for each of the three supported symmetries, the tensors of HubbardOperators have the matrix elements of the named operators (spin, number, parity, pair and Jordan-Wigner operators) between the occupation states the labels of HubbardSite stand for. AddHubbardHoppingTerms(t, i, j), i and j different, in either order and after any history of valid AddTerm calls, adds exactly -t sum_sigma (c+_i c_j + c+_j c_i) to the operator. For i = j an assertion fails.", "quantifier": "every chain length, pair of sites, amplitude, symmetry, earlier history of calls and pair of basis states", "why_tests_cant": "the signs depend on the occupations of all sites in between; tests compare a few small chains", "anchors": ["include/qlmps/model_relevant/operators/fermion/hubbard_operators.h:HubbardOperators,AddHubbardHoppingTerms", "include/qlmps/model_relevant/sites/fermion/hubbard_sites.h:HubbardSite"]}
{"id": "C70", "title": "The predefined t-J operators and hopping terms are the projected fermion operators they are named after", "statement": "As C69 for tJSite, tJOperators and AddTJHoppingTerms, on states without double occupancy and with complex amplitude: -t sum c+_i c_j - conj(t) sum c+_j c_i. For i = j an exception is thrown. The composite operators bdnc_multi_bupa and bupc_multi_bdna are c+_dn c_up and c+_up c_dn. (The last sentence is violated by the unchanged code: the two are exchanged.)", "quantifier": "every chain length, pair of sites, complex amplitude, symmetry, earlier history of calls and pair of basis states", "why_tests_cant": "the signs depend on the occupations of all sites in between; tests compare a few small chains", "anchors": ["include/qlmps/model_relevant/operators/fermion/tJ_operators.h:tJOperators,AddTJHoppingTerms", "include/qlmps/model_relevant/sites/fermion/tJ_sites.h:tJSite"]}
{"id": "C71", "title": "AddHeisenbergCoupling adds J S_i.S_j", "statement": "With the Hubbard, the t-J or the spin-1/2 operator set, AddHeisenbergCoupling(J, i, j) on two different sites, in either order and after any history of valid AddTerm calls, adds exactly J (SzSz + (S+S- + S-S+)/2); the spin-1/2 operators are the spin operators; on one site the call fails an assertion.", "quantifier": "every chain length, pair of sites, coupling, symmetry, earlier history of calls and pair of basis states", "why_tests_cant": "a statement about all matrix elements of an exponentially large operator", "anchors": ["include/qlmps/model_relevant/operators/spin/spin_one_half_operators.h:SpinOneHalfOperators,AddHeisenbergCoupling", "include/qlmps/model_relevant/sites/spin/spin_one_half_sites.h:SpinOneHalfSite"]}
{"id": "C72", "title": "A Hamiltonian put together from the predefined terms becomes an MPO with exactly its matrix elements, and the quantum numbers fit", "statement": "Any list of hopping, Heisenberg, density-density and one-site terms on any sites (different sites within a term, no two one-site terms of the same kind on one site, coefficients zero or not negligible, one not zero): making the corresponding calls and Gen, with or without compression, succeeds for each supported symmetry, and the MPO has the matrix elements of the sum of the terms. Each predefined operator changes the quantum numbers by one definite amount.", "quantifier": "every chain length, list of terms, coefficients, symmetry, compression on or off and pair of basis states", "why_tests_cant": "depends on the whole list of terms and on all sites between them", "anchors": ["include/qlmps/model_relevant/operators/fermion/hubbard_operators.h", "include/qlmps/model_relevant/operators/fermion/tJ_operators.h", "include/qlmps/model_relevant/operators/spin/spin_one_half_operators.h", "include/qlmps/one_dim_tn/mpo/mpogen/mpogen_impl.h:AddTerm,Gen"]}
{"id": "C62", "title": "The two-site optimisation is variational", "statement": "TwoSiteFiniteVMPS (and the master of the MPI version between its boundary sites) with a Hermitian MPO H, from an MPS with its centre at the first site of the range or the one after it: every energy reported by any update of any sweep is the expectation value of H in a normalised state of the whole chain, hence never below the ground-state energy; it is never above the energy of the MPS before the update; the MPS kept is the orthogonal projection of that state and its energy differs from the reported one by at most ||H|| (2 sqrt(eps) + eps), eps being the discarded weight. If nothing is discarded the energies never increase and the returned one is the energy of the MPS left on disk, which is normalised with its centre at site 1.", "quantifier": "every chain length from three, physical dimension, Hermitian MPO, initial MPS, number of sweeps, Lanczos iterations and tolerance, and truncation", "why_tests_cant": "a statement about all states, Hamiltonians and truncations, in an exponentially large space", "anchors": ["include/qlmps/algorithm/vmps/two_site_update_finite_vmps_impl.h:TwoSiteFiniteVMPS,TwoSiteFiniteVMPSSweep,TwoSiteFiniteVMPSUpdate", "include/qlmps/algorithm/vmps/vmps_init.h:UpdateSiteLenvs,UpdateSiteRenvs", "include/qlmps/algorithm/lanczos_vmps_solver_impl.h:LanczosSolver,eff_ham_mul_two_site_state"]}
{"id": "C73", "title": "Two-site TDVP evolves unitarily: norm and energy are conserved", "statement": "TwoSiteFiniteTDVP with a Hermitian MPO H, from an MPS with its centre at site 0 or 1: each evolution of each time step takes the state to one that differs only in the tensors of its bond or site, with the same norm and the same expectation value of H, and, with the solver's tolerance off and enough iterations, to the exact solution of the Schroedinger equation with H projected on such states; the decomposition afterwards projects orthogonally, so the norm never grows. If nothing is discarded, norm and energy on disk after any number of steps are exactly the initial ones, and the centre is at site 1. In the MPI version the evolutions of the bonds inside a sweep normalise, those of single sites and the last bond of each step keep the norm: after any step the norm is at most one whatever it was, and if nothing is discarded it is one, with the energy of the normalised initial state.", "quantifier": "every chain length from three, physical dimension, Hermitian MPO, initial MPS (normalised or not), number and length of time steps, Lanczos iterations and tolerance, and truncation", "why_tests_cant": "a statement about all states and Hamiltonians in an exponentially large space, for arbitrarily many steps", "anchors": ["include/qlmps/algorithm/tdvp/two_site_update_finite_tdvp_impl.h:TwoSiteFiniteTDVP,TwoSiteFiniteTDVPSweep,TwoSiteFiniteTDVPEvolution,SingleSiteFiniteTDVPBackwardEvolution", "include/qlmps/algorithm/tdvp/lanczos_expmv_solver_impl.h:LanczosExpmvSolver", "include/qlmps/algorithm/lanczos_vmps_solver_impl.h:eff_ham_mul_single_site_state", "include/qlmps/algo_mpi/tdvp/two_site_update_finite_tdvp_mpi_impl_master.h:MasterTwoSiteFiniteTDVPSweep,MasterTwoSiteFiniteTDVPEvolution,MasterSingleSiteFiniteTDVPBackwardEvolution"]}
{"id": "C74", "title": "From the terms of a Hamiltonian to the energies of the programs", "statement": "The tensors MPOGenerator::Gen returns, with or without compression, have one index value at both ends, fit at every bond and multiply to exactly the sum of the terms added; no label in the generator's matrices points outside the tables of coefficients and operators. Hence for any Hubbard, t-J or spin-1/2 Hamiltonian put together from the predefined terms with real coefficients (t-J hoppings may be complex): the energy TwoSiteFiniteVMPS returns with that MPO is never below the exact ground-state energy of the Hamiltonian in Fock space and, if nothing was discarded, it is the Fock space energy of the MPS on disk; TwoSiteFiniteTDVP conserves the norm and the Fock space energy if nothing is discarded.", "quantifier": "every chain length, list of terms, coefficients, symmetry, compression on or off, initial MPS, number of sweeps or time steps, Lanczos parameters and truncation", "why_tests_cant": "ranges over all Hamiltonians and all states of an exponentially large space, through generator, compression and optimisation", "anchors": ["include/qlmps/one_dim_tn/mpo/mpogen/mpogen_impl.h:Gen,HeadMpoTenRepr2MpoTen_,TailMpoTenRepr2MpoTen_,CentMpoTenRepr2MpoTen_,AddOpToHeadMpoTen,AddOpToTailMpoTen,AddOpToCentMpoTen", "include/qlmps/one_dim_tn/mpo/mpogen/coef_op_alg.h:CoefRepr::Realize,OpRepr::Realize", "include/qlmps/algorithm/vmps/two_site_update_finite_vmps_impl.h:TwoSiteFiniteVMPS", "include/qlmps/algorithm/tdvp/two_site_update_finite_tdvp_impl.h:TwoSiteFiniteTDVP"]}
{"id": "C75", "title": "The DMRG executor is variational, from the terms of a Hamiltonian to the MPS on disk", "statement": "GenMatReprMPO turns any valid history of AddTerm calls into matrices of operators that fit at every bond, have no row and no column without an operator and multiply to the sum of the terms. The super-block Hamiltonian that DMRGExecutor builds from such matrices and from block operators grown along the MPS is the Hamiltonian of the whole chain restricted to the states that differ from the MPS in two tensors. Hence Execute, from any MPS on disk with its centre not behind the left boundary, ends after any number of sweeps (all done or a stop requested) with an MPS on disk whose centre is site 0; the energy of the last update is never below the ground-state energy and, if nothing was discarded, is the energy of the normalised MPS on disk and not above that of the initial MPS. After an emergency stop the same holds for the MPS left by the last update. For Hubbard, t-J and spin-1/2 Hamiltonians the energies are those of Fock space.", "quantifier": "every chain length from three, physical dimension, list of terms, initial MPS, pattern of complete boundary tensors, number of sweeps, time of a stop or emergency signal, Lanczos parameters and truncation", "why_tests_cant": "ranges over all Hamiltonians, states and signal times; the space is exponentially large", "anchors": ["include/qlmps/algorithm/dmrg/dmrg_impl.h:DMRGExecutor::Execute,DMRGSweep_,TwoSiteUpdate_,SetEffectiveHamiltonianTerms_,DMRGPostProcess_", "include/qlmps/algorithm/dmrg/dmrg_init.h:UpdateRightBlockOps,UpdateLeftBlockOps,InitBlockOps,UpdateBoundaryBlockOps", "include/qlmps/algorithm/dmrg/lanczos_dmrg_solver_impl.h:LanczosSolver,SuperBlockHamiltonianTermMultiTwoSiteState,BlockSiteTermsMulTwoSiteState,SiteBlockTermsMulTwoSiteState", "include/qlmps/one_dim_tn/mpo/mpogen/mpogen_impl.h:GenMatReprMPO", "include/qlmps/one_dim_tn/mpo/mat_repr_mpo.h:MatReprMPO"]}
{"id": "C76", "title": "The parallel DMRG program ends, and leaves what the serial program leaves", "statement": "FiniteDMRG on at least two processes: whatever tasks each worker happens to get (tasks are handed out to whoever answers first), whatever the interleaving and however many sends are buffered, every execution ends; no rank receives a message, an order or a task it does not expect, no result is missing; master and workers all return with no message left; and the master's memory and all its files (tensors and block operators) are those the serial executor leaves from the same files. In particular the tensor files hold the result of the requested sweeps and the right block operators are those of the MPS on disk. With the tensors of the code as numbers: the sum of the partial products of the workers is the Hamiltonian of the whole chain on the two-site block, and after at least one sweep the MPS on disk is canonical and the energy of the last update is variational for it (not below the ground state, without truncation the energy of the MPS on disk and not above that of the initial MPS).", "quantifier": "every number of workers from one, chain length, MPO bond dimensions, initial files (block operators missing or reusable), number of sweeps, Lanczos iteration counts, schedule, task assignment and buffering of sends", "why_tests_cant": "depends on schedules and on which worker answers first in every one of an unbounded number of farming loops", "anchors": ["include/qlmps/algo_mpi/dmrg/dmrg_mpi.h:FiniteDMRG", "include/qlmps/algo_mpi/dmrg/dmrg_mpi_impl_master.h:DMRGMPIMasterExecutor", "include/qlmps/algo_mpi/dmrg/dmrg_mpi_impl_slave.h:DMRGMPISlaveExecutor", "include/qlmps/algo_mpi/dmrg/lanczos_dmrg_solver_mpi_master.h:LanczosSolver_,DynamicHamiltonianMultiplyState_,StaticHamiltonianMultiplyState_"]}
{"id": "C77", "title": "Single-site optimisation with subspace expansion is variational; noise never changes the state, but noise with truncation can destroy it", "statement": "SingleSiteFiniteVMPS on at least two sites from an MPS on disk with its canonical centre at site 0 and a Hermitian MPO, with the noises of the adaptive rule or any others: every update reports an energy that is at most the energy of the MPS before it and that is the energy of a unit vector of which the new MPS is an orthogonal projection (all of it if nothing is discarded: the expansion by noise leaves the state as it is); no reported energy is below the ground-state energy; without truncation the energies never increase and the returned energy is that of the normalised MPS on disk, whose canonical centre is again site 0. The energy on which the noise rule bases its decision is the energy of the whole MPS. Without noise, or without truncation, the MPS never becomes zero; with both it can (violation): a truncation that keeps the largest singular values may keep only directions of the noise.", "quantifier": "every chain length from two, Hamiltonian, initial MPS, list of noises and parameters of the noise rule, number of sweeps, Lanczos parameters and truncation", "why_tests_cant": "ranges over all Hamiltonians, states and noise histories", "anchors": ["include/qlmps/algorithm/vmps/single_site_update_finite_vmps_impl.h:SingleSiteFiniteVMPS,SingleSiteFiniteVMPSSweep,SingleSiteFiniteVMPSUpdate,SingleSiteFiniteVMPSExpand,CalEnergyEptSingleSite", "include/qlmps/algorithm/lanczos_params.h", "include/qlmps/algorithm/vmps/lanczos_vmps_solver_impl.h:LanczosSolver,eff_ham_mul_single_site_state"]}
{"id": "C78", "title": "Two-site optimisation with noise is variational; noise never changes the state, but noise with truncation can destroy it", "statement": "TwoSiteFiniteVMPSWithNoise on at least three sites from an MPS on disk with its canonical centre not behind the second site of the sweeps and a Hermitian MPO, wherever the bond dimensions put the first and last site of the sweeps, with the noises of the adaptive rule or any others: the call succeeds; every update reports an energy that is at most the energy of the MPS before it and that is the energy of a unit vector of which the new MPS is an orthogonal projection (all of it if nothing is discarded: the expansion by noise leaves the state as it is); no reported energy is below the ground-state energy; without truncation the energies never increase and the returned energy is that of the normalised MPS on disk. The changes of gauge at both ends before the sweeps and the last canonicalisation leave the state alone, and the canonical centre ends at the second site of the sweeps. The energy on which the noise rule bases its decision is the energy of the whole MPS. Without noise, or without truncation, the MPS never becomes zero; with both it can (violation).", "quantifier": "every chain length from three, Hamiltonian, initial MPS, boundary sites, list of noises and parameters of the noise rule, pattern of skipped expansions, number of sweeps, Lanczos parameters and truncation", "why_tests_cant": "ranges over all Hamiltonians, states and noise histories", "anchors": ["include/qlmps/algorithm/vmps/two_site_update_noise_finite_vmps_impl.h:TwoSiteFiniteVMPSWithNoise,TwoSiteFiniteVMPSSweep,TwoSiteFiniteVMPSUpdate,TwoSiteFiniteVMPSExpand,CalEnergyEptTwoSite", "include/qlmps/algorithm/vmps/vmps_init.h:CheckAndUpdateBoundaryMPSTensors,UpdateBoundaryEnvs", "include/qlmps/algorithm/vmps/lanczos_vmps_solver_impl.h:LanczosSolver,eff_ham_mul_two_site_state"]}
{"id": "C79", "title": "The parallel two-site VMPS program computes the serial result and is variational", "statement": "TwoSiteFiniteVMPS on at least two processes, at least three sites, from an MPS on disk with its canonical centre not behind the second site of the sweeps and a Hermitian MPO: every execution ends without crash, deadlock or left-over message, and the MPS then on disk is, tensor by tensor, the one the program in one process leaves there; so the sums of the workers' partial products and partial environments, over the sectors of one leg, are the whole products and environments in every step. After at least one sweep its canonical centre is the second site of the sweeps, it is not zero, the last energy reported is not below the ground-state energy and, if nothing was discarded, is the energy of the normalised MPS on disk and not above that of the initial MPS.", "quantifier": "every number of workers from one, chain length, Hermitian MPO, initial MPS, division of the legs into sectors, boundary sites, environments on disk (missing or reusable), number of sweeps, Lanczos parameters, truncation, schedule, task assignment and buffering of sends", "why_tests_cant": "depends on which worker answers first in every one of an unbounded number of farming loops and ranges over all Hamiltonians and states", "anchors": ["include/qlmps/algo_mpi/vmps/two_site_update_finite_vmps_mpi_impl_master.h:MasterTwoSiteFiniteVMPS,TwoSiteFiniteVMPSSweep,MasterTwoSiteFiniteVMPSUpdate", "include/qlmps/algo_mpi/vmps/two_site_update_finite_vmps_mpi_impl_slave.h:SlaveTwoSiteFiniteVMPS", "include/qlmps/algo_mpi/vmps/lanczos_solver_mpi_master.h:MasterLanczosSolver,master_two_site_eff_ham_mul_state", "include/qlmps/algo_mpi/vmps/lanczos_solver_mpi_slave.h:slave_two_site_eff_ham_mul_state", "include/qlmps/algo_mpi/env_ten_update_master.h:MasterGrowLeftEnvironment,MasterGrowRightEnvironment", "include/qlmps/algo_mpi/vmps/vmps_mpi_init_master.h:TwoSiteFiniteVMPSInit,InitEnvsMaster"]}
{"id": "C80", "title": "GetEntanglementEntropy returns the entropies of the reduced density matrices and leaves the normalised state", "statement": "After any calls without LoadTen, GetEntanglementEntropy(n) of a non-zero MPS state on N >= 1 sites returns N - 1 numbers. For n >= 2 the number of the bond behind the first i sites is the Renyi entropy log(tr rho^n)/(1 - n) of the reduced density matrix rho of these sites in the normalised state. For n = 1 it is the von Neumann entropy of rho, or NaN, the latter only if the SVD of the tensor library keeps a vanishing singular value. For n = 0 it is zero whatever the state (not the logarithm of the rank). The MPS is left with the normalised state, every tensor but the first a right isometry and flagged so, GetCenter() -1. Without sites the call is undefined.", "quantifier": "every chain length, physical dimension, bond dimensions, MPS state (normalised or not), history of calls before, and order n", "why_tests_cant": "a statement about the spectra of density matrices of all states", "anchors": ["include/qlmps/one_dim_tn/mps/finite_mps/finite_mps.h:GetEntanglementEntropy,RightCanonicalizeTen,Centralize", "include/qlmps/utilities.h:mock_qlten::SVD"]}
{"id": "C81", "title": "TwoSiteFiniteTDVP returns the time-dependent correlations of the evolved state", "statement": "A serial TwoSiteFiniteTDVP run with local_op_corr, a Hermitian MPO and an MPS psi on disk whose tensors behind site_0 are right-canonical returns N * (step + 1) measurements. Measurement k * N + i is labelled with the sites (site_0, i) and the times (0, k tau) and has the value exp(i e0 k tau) <phi|O1_i|Phi_k>: phi is the MPS in the directory of the initial state (a copy of psi, if that directory did not exist), O1_i the measured operator at i with its string, Phi_0 the state O0 psi with the initial operator and its string, and Phi_k the MPS after k times the evolutions of C73. No Phi_k is zero, their norms do not grow, and norm and energy are constant if nothing is discarded. At the end the directory of the MPS holds the last state, the directory of the initial state is unchanged, memory is empty.", "quantifier": "every chain length from three, physical dimension, Hermitian MPO, initial MPS (normalised or not), operators and strings, site_0, number and length of time steps, Lanczos and truncation parameters, and contents of the temporary directories", "why_tests_cant": "composition of preparation, sweeps and measurements over arbitrarily many steps, for all states and operators", "anchors": ["include/qlmps/algorithm/tdvp/two_site_update_finite_tdvp_impl.h:TwoSiteFiniteTDVP", "include/qlmps/algorithm/tdvp/tdvp_evolve_params.h:TDVPEvolveParams"]}
{"id": "C82", "title": "The MPI TDVP run returns the correlations of the serial definition, its normalisation compensated", "statement": "The master of the MPI TwoSiteFiniteTDVP, from the situation of C81 but with or without local_op_corr, returns N * (step + 1) measurements labelled as in C81. Measurement k * N + i has the value exp(i e0 k tau) <phi|O1_i|Phi_k> with Phi_0 = O0 psi and Phi_k the norm of O0 psi times the MPS on disk after k time steps, although the evolutions of the MPI version normalise: the norm taken before the first step is put back into every value, that of time zero included. No Phi_k is zero or has a larger norm than O0 psi; if nothing is discarded, norm and energy of Phi_k are those of O0 psi at all times. The MPS left on disk has norm at most one.", "quantifier": "every chain length from three, physical dimension, Hermitian MPO, initial MPS (normalised or not), operators and strings, site_0, number and length of time steps, Lanczos and truncation parameters, and contents of the temporary directories", "why_tests_cant": "composition of preparation, sweeps and measurements over arbitrarily many steps, for all states and operators", "anchors": ["include/qlmps/algo_mpi/tdvp/two_site_update_finite_tdvp_mpi_impl_master.h:MasterTwoSiteFiniteTDVP,TwoSiteFiniteTDVPSweep", "include/qlmps/algorithm/tdvp/tdvp_evolve_params.h:TDVPEvolveParams"]}
{"id": "C83", "title": "The workers of the parallel TDVP program change nothing", "statement": "The MPI TwoSiteFiniteTDVP with at least two processes: whenever the run of the master alone (C82) succeeds, every execution of master and workers ends without crash, deadlock, wrong file or left-over message, with exactly the files, the MPS object and the table of measurements of that run. So in the situation of C82 every execution returns the correlations of C82, whatever the assignment of tasks.", "quantifier": "every number of workers from one, division of the legs into sectors, schedule, task assignment and buffering of sends, on top of everything C82 ranges over", "why_tests_cant": "depends on which worker answers first in every one of an unbounded number of farming loops and ranges over all Hamiltonians and states", "anchors": ["include/qlmps/algo_mpi/tdvp/two_site_update_finite_tdvp_mpi_impl_master.h:MasterTwoSiteFiniteTDVP,TwoSiteFiniteTDVPSweep", "include/qlmps/algo_mpi/tdvp/two_site_update_finite_tdvp_mpi_impl_slave.h:SlaveTwoSiteFiniteTDVP", "include/qlmps/algo_mpi/tdvp/lanczos_expmv_solver_mpi.h:MasterLanczosExpmvSolver", "include/qlmps/algo_mpi/env_ten_update_master.h:MasterGrowLeftEnvironment,MasterGrowRightEnvironment"]}
{"id": "C84", "title": "The parallel two-site VMPS program with noise computes what one process computes and is variational", "statement": "TwoSiteFiniteVMPSWithNoise on at least two processes, at least three sites, with at least one noise, from an MPS on disk: every execution ends without crash, deadlock or left-over message, in exactly the state (memory and disk) that the master's program reaches when it does all numerical work itself. The MPS on disk is the one the serial program leaves if the updates of sweep s are given the noise noises[s] (the last noise when the list is exhausted), with the canonical centre moved to site 0. With a Hermitian MPO and the centre initially at site 0 or 1, at least one sweep, and a state that noise and truncation do not annihilate (always so if all noises are below the threshold or nothing is discarded), the MPS on disk is not zero, the last energy reported is not below the ground-state energy and, if nothing was discarded, is the energy of the normalised MPS on disk and not above that of the initial MPS.", "quantifier": "every number of workers from one, chain length, MPO, initial MPS, list of noises, rule by which the expansion chooses components, division of the legs into sectors, boundary sites, environments on disk (missing or reusable), number of sweeps, Lanczos parameters, truncation, schedule, task assignment and buffering of sends", "why_tests_cant": "depends on which worker answers first in every one of an unbounded number of farming loops and ranges over all Hamiltonians, states and noises", "anchors": ["include/qlmps/algo_mpi/vmps/two_site_update_noised_finite_vmps_mpi_impl.h:MasterTwoSiteFiniteVMPSWithNoise,NoisedVMPSPostProcess,TwoSiteFiniteVMPSSweep,MasterTwoSiteFiniteVMPSUpdate,MasterTwoSiteFiniteVMPSRightMovingExpand,SlaveTwoSiteFiniteVMPSRightMovingExpand,MasterTwoSiteFiniteVMPSLeftMovingExpand,SlaveTwoSiteFiniteVMPSLeftMovingExpand"]}
{"id": "C85", "title": "A term added to the generator of infinite MPOs reaches its machine as the string of its operators", "statement": "AddTerm of iMPOGenerator should accept any term with ascending sites. What holds: if all sites between the first and the last one that carry no operator lie in the first unit cell, the machine is given one operator per site from the first to the last, the listed operator or the identity of the site, with the coefficient on the last site and coefficient one elsewhere, under labels that stand for exactly these operators and coefficients; insertion operators at explicit sites are put behind the operator to their left. What fails: an empty site in a later cell reads the table of identity operators out of range; default insertion sites and one-site terms fail an assertion; after any history of calls no call of any overload succeeds, because the machine refuses every string. The column reordering returns a permutation that puts equal elements together, whatever order the hash table has.", "quantifier": "every unit cell, every history of AddTerm calls of all five overloads (exceptions caught), every coefficient, operator list, site list and insertion string; every list to reorder and every enumeration order of the hash table", "why_tests_cant": "the class is only exercised, if at all, with a handful of terms; that no history whatever leads to an accepted term, and that labels stay right over all histories, cannot be sampled", "anchors": ["include/qlmps/one_dim_tn/mpo/mpogen/impo_gen.h:iMPOGenerator::AddTerm,AddConsecutiveOps_", "include/qlmps/one_dim_tn/mpo/mpogen/impo_gen_impl.h:AddTerm,TransferHamiltonianTermToConsecutiveOpRepr_,ReorderVecToSameElemNearBy", "include/qlmps/one_dim_tn/mpo/mpogen/ifsm.h:iFSM::AddPath"]}
{"id": "C86", "title": "The file of measurement results is a JSON text of exactly these results", "statement": "The file written by MeasureOneSiteOp, MeasureTwoSiteOp, MeasureMultiSiteOp (real or complex) and by the TDVP programs is a JSON text. Its value is the list of the results in order, each an array of its sites (exactly), its times in the dynamical case, and its average, real as a number, complex as the pair of real and imaginary part, to 12 significant digits. For the one- and multi-site measurements these are the expectation values of the measured operators in the state of the MPS; for TwoSiteFiniteTDVP, serial or parallel, the correlations of C81 at all sites and times, in order of time and site. Exceptions: a result without sites is undefined behaviour; infinities and NaNs are written as texts that are no JSON; the times of the first dynamical result are written with 6 significant digits only.", "quantifier": "every list of results, including the empty one, every number of sites per result, all values whose printed form is a JSON number, every MPS history before the measurement", "why_tests_cant": "must hold for result lists, site numbers and values of every length; a test reads back a few files", "anchors": ["include/qlmps/one_dim_tn/mps/finite_mps/finite_mps_measu_memory.h:DumpMeasuRes,DumpSites,DumpAvgVal,MeasureOneSiteOp,MeasureMultiSiteOp", "include/qlmps/algorithm/tdvp/two_site_update_finite_tdvp_impl.h:DumpMeasuRes"]}
{"id": "C87", "title": "Different items never share a file name", "statement": "The files of the library are named from a directory, a kind and numbers: the tensors of an MPS, the tensors and the centre of a finite MPO, the environments of the sweeps, the block operators of the DMRG executor, the powers of an MPO kept by ExpFiniteMPO. Two such names are equal exactly if directory, kind and numbers are equal, so that after any sequence of writes and removals a reader finds what was last written for the very item it asks for. The directories of ExpFiniteMPO's powers are different for different prefixes, orders, signs of tau, or values of tau more than 1e-6 apart. What fails: tau is printed with six decimals, so all 0 <= tau < 5e-7 share their directories.", "quantifier": "every directory, every kind of file, every number of sites, blocks and components (unbounded), every order and rational tau, every sequence of writes and removals", "why_tests_cant": "a clash would need particular numbers (site 1 component 12 against site 11 component 2); a test tries a few", "anchors": ["include/qlmps/one_dim_tn/mps/mps.h:GenMPSTenName", "include/qlmps/one_dim_tn/mpo/finite_mpo/finite_mpo.h:GenMPOTenName,Dump,Load", "include/qlmps/algorithm/vmps/two_site_update_finite_vmps_impl.h:GenEnvTenName", "include/qlmps/algorithm/dmrg/operator_io.h:GenOpFileName", "include/qlmps/one_dim_tn/mpo/finite_mpo/exp_finite_mpo.h:GenHnMpoPath"]}
{"id": "C88", "title": "The energies of every program are energies of the Hamiltonian that was written down", "statement": "Let a Hamiltonian be written as Hubbard, t-J or spin-1/2 terms with the operators of the library, its MPO generated by MPOGenerator. Then SingleSiteFiniteVMPS, TwoSiteFiniteVMPSWithNoise, the parallel TwoSiteFiniteVMPS, the parallel TwoSiteFiniteVMPSWithNoise (with the MPO) and the parallel DMRG executor (with the matrices of operators), run on any MPS in canonical form and any number of sweeps, end, and the last energy is not below the ground-state energy of the Hamiltonian in Fock space; if nothing is truncated the final MPS is normalised, the energy is its expectation value of the Hamiltonian, and it is not above the one of the state before.", "quantifier": "every chain length from 3, every list of terms with coefficients making the operator Hermitian, symmetries, compression on or off, all parameters, sweeps, bond dimensions, numbers of workers, every execution of the parallel programs", "why_tests_cant": "ranges over all Hamiltonians, states, schedules and message orders", "anchors": ["include/qlmps/algorithm/vmps/single_site_update_finite_vmps_impl.h:SingleSiteFiniteVMPS", "include/qlmps/algorithm/vmps/two_site_update_noise_finite_vmps_impl.h:TwoSiteFiniteVMPSWithNoise", "include/qlmps/algo_mpi/vmps/two_site_update_finite_vmps_mpi_impl_master.h:TwoSiteFiniteVMPS", "include/qlmps/algo_mpi/vmps/two_site_update_noised_finite_vmps_mpi_impl.h", "include/qlmps/algo_mpi/dmrg/dmrg_mpi_impl_master.h", "include/qlmps/one_dim_tn/mpo/mpogen/mpogen.h:AddTerm,Gen,GenMatReprMPO"]}
{"id": "C89", "title": "Dynamical correlation functions of fermions and spins come out with the right signs", "statement": "Let a Hamiltonian be written as Hubbard, t-J or spin-1/2 terms with the operators of the library and its MPO be generated by MPOGenerator. Give TwoSiteFiniteTDVP, serial or parallel, any two one-site operators A and B of the library's operator classes, a single fermion operator with the parity operator as insertion operator. Then the run ends, and the record of time t = k tau and site i holds exp(i e0 t) <phi| B_i |Phi(t)>, where B_i, including the Jordan-Wigner signs, is the operator of Fock space and Phi(0) = A_site0 psi (for t-J projected to the states without doubly occupied sites). The norm of Phi never grows; without truncation norm and energy in the Hamiltonian do not change.", "quantifier": "every chain length from 3, every list of terms with Hermitian sum, every symmetry, compression on or off, every pair of operators, every initial MPS with right isometries behind site0, every tau and number of steps, every number of workers and every execution", "why_tests_cant": "signs that are wrong for one operator, site or distance are invisible in spot checks; all schedules of the parallel program are included", "anchors": ["include/qlmps/algorithm/tdvp/two_site_update_finite_tdvp_impl.h:TwoSiteFiniteTDVP", "include/qlmps/algo_mpi/tdvp/two_site_update_finite_tdvp_mpi_impl_master.h:TwoSiteFiniteTDVP", "include/qlmps/model_relevant/operators/fermion/hubbard_operators.h", "include/qlmps/model_relevant/operators/fermion/tJ_operators.h", "include/qlmps/model_relevant/operators/spin/spin_one_half_operators.h"]}
{"id": "C90", "title": "Measured correlations of fermions and spins are expectation values in Fock space", "statement": "Take an MPS in memory, in whatever canonical state its history left it, and operators of HubbardOperators, tJOperators or SpinOneHalfOperators. MeasureOneSiteOp returns <A_i> for every site and operator; MeasureTwoSiteOp with the identity inserted returns <A_i B_j> for operators that conserve the fermion parity; MeasureTwoSiteOp with the parity f inserted returns <A_i B_j> for fermion operators, where the tensors for the left and for the right end are those of the operator class (some stand for minus the operator); MeasureMultiSiteOp with insertions f, id, f returns <A_i B_j C_k D_l>. The expectation values are those of Fock space, where fermion operators of different sites anticommute. The state is unchanged.", "quantifier": "every chain length, history of the MPS, list of operators, list of ascending sites, symmetry, real or complex amplitudes", "why_tests_cant": "a wrong sign shows only for particular operators, distances and occupations in between", "anchors": ["include/qlmps/one_dim_tn/mps/finite_mps/finite_mps_measu_memory.h:MeasureOneSiteOp,MeasureTwoSiteOp,MeasureMultiSiteOp", "include/qlmps/model_relevant/operators/fermion/hubbard_operators.h", "include/qlmps/model_relevant/operators/fermion/tJ_operators.h", "include/qlmps/model_relevant/operators/spin/spin_one_half_operators.h"]}
{"id": "C91", "title": "Dump and Load of an MPS lose nothing, and what a crash or an incomplete directory leads to", "statement": "Dump(path, release_mem) of an MPS with a tensor in every slot writes every site's tensor to its own file, touches no other file, keeps the canonical flags and the centre, and leaves the tensors in memory (release_mem = false) or every slot empty (true). Load(path) puts exactly the tensors of the files into the slots and keeps flags and centre; if a file is missing or is not a tensor it throws. Dump, then Load into an MPS just constructed gives the object one would get by writing the tensors one by one; Dump(path, true), then Load on the same object gives back the same object with its flags and centre. If the process dies inside Dump over an older MPS, Load throws if a file was cut short, but otherwise returns a mixture of both. Load into an MPS used before keeps its flags: if they are true of the loaded tensors, measurements are right; otherwise they are wrong.", "quantifier": "every MPS, chain length, canonical state, previous contents of the directory, crash point", "why_tests_cant": "ranges over all states of the object, all directory contents and all crash points", "anchors": ["include/qlmps/one_dim_tn/mps/mps.h:Dump,Load", "include/qlmps/one_dim_tn/framework/ten_vec.h:LoadTen,DumpTen", "include/qlmps/one_dim_tn/framework/duovector.h:operator[]"]}
{"id": "C92", "title": "A whole calculation: the measured values belong to one state with the reported energy", "statement": "Write a Hamiltonian as Hubbard, t-J or spin-1/2 terms, generate the MPO, make a product state with DirectStateInitMps, Dump(path, true), run TwoSiteFiniteVMPS or TwoSiteFiniteVMPSWithNoise, serial or parallel, or SingleSiteFiniteVMPS, where noise is allowed if nothing is discarded (or GenMatReprMPO and FiniteDMRG, serial and possibly stopped by a signal, or parallel), Load(path) into a new MPS or (except after the parallel program with noise, which leaves tensors in memory) into the MPS used so far and measure. Every step succeeds. The returned energy is not below the exact ground-state energy in Fock space. All measurements return expectation values in one state Psi that is not zero; if nothing was discarded Psi is normalised, its energy in the Hamiltonian is the returned energy, and that is not above the energy of the product state.", "quantifier": "every chain length from 3, every list of terms with Hermitian sum, symmetry, product state, number of sweeps, bond dimensions, previous contents of the MPS directory, number of workers and order of messages, every measurement of C90", "why_tests_cant": "ranges over all Hamiltonians, states and parameters; it depends on every component keeping the conventions of the next one", "anchors": ["include/qlmps/one_dim_tn/mpo/mpogen/mpogen.h:AddTerm,Gen", "include/qlmps/one_dim_tn/mps/finite_mps/finite_mps_init.h:DirectStateInitMps", "include/qlmps/one_dim_tn/mps/mps.h:Dump,Load", "include/qlmps/algorithm/vmps/two_site_update_finite_vmps_impl.h:TwoSiteFiniteVMPS", "include/qlmps/one_dim_tn/mps/finite_mps/finite_mps_measu_memory.h:MeasureOneSiteOp"]}
{"id": "C93", "title": "Both forms of the super-block Hamiltonian act alike", "statement": "The library can apply the super-block Hamiltonian of two-site DMRG in two ways: term by term, or after combine_operators_in_super_blk_hamiltonian has multiplied out the operators of each block with those of the site beside it. Whatever the terms, both return the same state, and one fails (no terms, a missing operator, a bond that does not fit) exactly if the other does.", "quantifier": "every list of terms, bond dimensions, state, real or complex elements", "why_tests_cant": "ranges over all operators and states; a wrong order of legs shows only for operators that are not symmetric", "anchors": ["include/qlmps/algorithm/dmrg/lanczos_dmrg_solver_impl.h:combine_operators_in_super_blk_hamiltonian,super_block_hamiltonian_mul_two_site_state"]}
{"id": "C94", "title": "A system of local Hilbert spaces does not depend on index directions", "statement": "SiteVec made from a list of indexes, whatever their directions, has as many sites as indexes, all outgoing, each with the given sectors, and an identity operator on each site with the incoming leg first. SiteVec(N, index) is the same as from N copies of the index. Two SiteVecs compare equal exactly if they have the same sectors site by site. No site is an assertion failure.", "quantifier": "every list of indexes with any directions", "why_tests_cant": "ranges over all lists of indexes", "anchors": ["include/qlmps/site_vec.h:SiteVec,GenIdOp,SetIndexDirOut"]}
{"id": "C95", "title": "Optimisation programs can be run one after the other on the same directory", "statement": "Run any sequence of TwoSiteFiniteVMPS, SingleSiteFiniteVMPS, TwoSiteFiniteVMPSWithNoise, FiniteDMRG and the parallel versions of all but the single-site program, for the same Hermitian Hamiltonian, on the same MPS directory (an empty temporary directory each time), such that each program accepts the canonical centre where the program before it left it. Then every run succeeds (every execution of a parallel one ends), no reported energy is below the ground-state energy, and the MPS on disk is canonical around the centre the last program leaves, with a state that is not zero. If nothing is discarded, the energies do not increase from program to program, none is above the energy of the initial MPS, and the last one is the energy of the normalised state on disk. From a product state and a Hubbard, t-J or spin-1/2 Hamiltonian, with the MPO tensors and the matrix-representation MPO both generated from the same terms, the whole calculation of C92 holds with the sequence in place of a single program. SingleSiteFiniteVMPS does not accept the centre at site 1 that the serial TwoSiteFiniteVMPS leaves: its first update reports at most the energy of the MPS divided by the first bond dimension and can turn an exact ground state into zero; if it does not, the later updates recover.", "quantifier": "every chain length from 3, every Hermitian MPO, every sequence of programs and every choice of sweeps, parameters, boundaries, signals, noises (below the threshold or without truncation), number of workers and order of messages", "why_tests_cant": "ranges over all histories of program runs; each program relies on what every other one leaves on disk", "anchors": ["include/qlmps/algorithm/vmps/two_site_update_finite_vmps_impl.h:TwoSiteFiniteVMPS", "include/qlmps/algorithm/vmps/single_site_update_finite_vmps_impl.h:SingleSiteFiniteVMPS", "include/qlmps/algorithm/dmrg/dmrg_impl.h:FiniteDMRG", "include/qlmps/algo_mpi/vmps/two_site_update_finite_vmps_mpi_impl_master.h:TwoSiteFiniteVMPS"]}
{"id": "C96", "title": "A temporary directory may be kept between programs for the same Hamiltonian", "statement": "Call TwoSiteFiniteVMPS, SingleSiteFiniteVMPS and TwoSiteFiniteVMPSWithNoise any number of times on the same MPS directory and temporary directory, the latter being deleted before some of the calls. Every call should succeed and make its local updates in the environments of the MPS on disk and of its own Hamiltonian. True if the directory is deleted before every call, and if every call that finds it is for the Hamiltonian of the call before and sweeps within the range of sites of the call before, and no single-site call finds it after one of the two-site programs; then the calls leave file by file what they leave with an empty temporary directory each time, so the statements of C95 about energies and states hold. The unchanged code violates it otherwise: a single-site call stops at a missing file in the directory of a two-site call; single-site, two-site, single-site silently uses a stale environment in the last call; so does a call for another Hamiltonian, and a two-site call after a noisy one with a smaller range.", "quantifier": "every chain length from 3, every sequence of calls with any Hamiltonians, numbers of sweeps, local solvers and ranges, every choice of deletions", "why_tests_cant": "ranges over all histories of program runs; a stale environment gives plausible numbers, not an error", "anchors": ["include/qlmps/algorithm/vmps/two_site_update_finite_vmps_impl.h:TwoSiteFiniteVMPS,InitEnvs", "include/qlmps/algorithm/vmps/single_site_update_finite_vmps_impl.h:SingleSiteFiniteVMPS", "include/qlmps/algorithm/vmps/two_site_update_noise_finite_vmps_impl.h:TwoSiteFiniteVMPSWithNoise", "include/qlmps/algorithm/vmps/vmps_init.h:FiniteVMPSInit,NeedGenerateRightEnvs,UpdateBoundaryEnvs"]}
