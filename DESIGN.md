# Formal model of QuantumLiquids/UltraDMRG in Lean 4

All paths are relative to `/repo/include/qlmps/` unless they start with `include/`.
`properties.jsonl` has the properties in English, `MANIFEST.json` the theorems that settle each of them, `seeded/LOG.jsonl` the
wrong programs the theorems were tested against.

## 1. Method

The library is C++ header-only code on top of an external tensor library (QLTensor) and MPI. Nothing is executed here. We read the code
and write, in Lean 4, small total functions and transition systems that follow it function by function; the properties are theorems about
these, for all sizes and all executions. Each definition that models code cites file and lines;
definitions without a citation are semantics (heap, files, MPI, matrices), specifications, or invariants used in proofs.

Undefined behaviour, `assert`, `exit(1)`, `MPI_Abort` and exceptions are *distinct outcomes* (error constructors, a crashed rank), never
totalised away where a property could depend on them.

A property that the code violates is recorded as such: a theorem whose name ends in `_violation`, `_violated`, `_fails`, `_wrong` or
similar gives a concrete input on which the model of the unchanged code does the wrong thing, and beside it stands the theorem under the exact condition
(or the exact description of what the code does).

Layout: `lean/Verif/Props/*.lean` contains the property theorems, each with a concrete case that meets its hypotheses;
`lean/Verif/{Mpo,Mps,Disk,Algo,Mpi,Misc}` contain the model, the small separate specifications, and the helper lemmas.

## 2. Trusted base

* Lean 4.33.0's kernel.
* The axioms `propext`, `Classical.choice`, `Quot.sound` of Lean's standard library (list per theorem in section 6). No axioms of our own, no `sorry`,
  no `native_decide`, no `bv_decide`.
* The reading of the C++ source: that every definition says what the cited lines do. This is the tie between model and code.
* The assumptions of section 4.

## 3. What is modelled, property by property

### 3.1 MPO generation — `one_dim_tn/mpo/mpogen/**`

Modules `Mpo/SparMat` (flat-array sparse matrix), `Mpo/Alg` (`CoefRepr`, `OpRepr`), `Mpo/Compress` (separation of common coefficients,
delinearisation, compression), `Mpo/Fsm` (nodes, paths), `Mpo/Gen` (`LabelConvertor`, `AddTerm` overloads, `Gen`, `GenMatRepr`), `Mpo/QNSort`
(column grouping), `Mpo/Ifsm` (infinite machine), `Mpo/Impo` (`iMPOGenerator`). Specifications: `Mpo/Spec`, `Mpo/Sem`.

An on-site operator is a label; a *valuation* into an arbitrary commutative semiring fixes one in- and one out-basis state per site and turns labels into scalars.
Equality of the values for every valuation is equality of all matrix elements.

* **C01** The value of the generated MPO is the sum of the values of the terms added: exact theorem for every history, including which terms the code drops
  (a one-site term equal to the entry already present), with witness.
* **C02, C03, C04** Compression keeps the operator, never reaches `exit(1)`/`assert`, and never enlarges a bond. Invariant: per bond, the column of the left
  matrix or the row of the right one has unit coefficients.
* **C05** State numbering is a bijection for the four presence cases. **C06, C07, C47** `AddTerm` overloads: independence of order, sign normalisation, the two-operator overload.
* **C08** Insertion strings: proved between operators; the tail string starts at the last operator (sign violated, witness; exact theorem).
* **C09** Labels are stable and injective over every history. **C10** `SparMat` refines a table over every edit history; equality is that of the tables. **C94** `SiteVec` (`Mpo/SiteVec`): constructors and comparison, by computation on lists. **C11** realisation in a semiring.
* **C12** Columns with equal quantum number are grouped, one bond per site. **C13** `Gen` is safe iff some term was added (otherwise undefined behaviour).
* **C46** The infinite machine accepts no term at all (proved for every input). **C85** `iMPOGenerator`: no call of any overload succeeds in any history; the string that reaches the machine is the term's if its empty sites lie in the first cell, else the identity table is read out of range; `ReorderVecToSameElemNearBy` for every order of the hash table. `Gen` has an empty body and `EvaluateMatReprQN_` indexes an empty vector; neither is modelled, nothing can be proved of a value they do not return.
* **C69–C72** Predefined sites, operators and Hamiltonian builders (`model_relevant/**`; `Mpo/Models`). Specification `Props/FockSpec`, `ModelSpec`, `HamSpec`: annihilation and creation matrices on occupation configurations,
  proved to satisfy the anticommutation relations. The proof writes every fermion operator as a Jordan-Wigner product of one-site matrices; hopping, exchange and whole Hamiltonians then follow from C01. Charges of the operators give C01's neutrality hypothesis.

### 3.2 Matrix product states — `one_dim_tn/framework`, `one_dim_tn/mps`

`Mps/Duo` is a heap model of `DuoVector` (addresses, allocation, double free, use after free); `Mps/Tensor` dense three-leg tensors over a field with conjugation,
`Mps/Fmps` `FiniteMPS` with flags and centre, `Mps/Init` the initialisers, `Mps/Measure` and `Mps/DiskMeasure` the measurements, `Mps/TdvpMeasure` the TDVP measurement.
QR and SVD are *parameters* that satisfy `QRSpec`/`SVDSpec` (factorisation and isometry); they are instantiated (`qr0`).

* **C14, C15** `Centralize` and its steps keep all amplitudes, give canonical form, flags are truthful over every history without `LoadTen` (witness with it).
* **C16** Containers behave as values, every tensor is freed exactly once; self copy-assignment loses the contents (witness).
* **C17** `Reverse`. **C42** initial states. **C48** inner product. **C49** sum of states (N = 1 and aliasing refuted). **C50, C51** one- and multi-site expectation values are
  the values of the dense formula. **C43, C52** the same for the measurements that read one tensor at a time from files, and their memory.
* **C65, C66** `FiniteMPO` (`Mps/Fmpo*`): the same tensors with the pair (outgoing, incoming) as physical index; the specification is a matrix over configurations. Products, sums, scaling, trace, identity, normalisation, dump and load,
  truth of flags and centre over all histories; truncation is the orthogonal projection (C66). `TruncateMPS` (C67): norm one and the fidelity given by the printed errors. The truncated SVD is a parameter with its specification (isometry, projection, discarded weight).
  `GetEntanglementEntropy` (C80, `Mps/Entropy*`): the tensors left of the bond are isometries when its SVD is taken, so the reduced density matrix is `C diag(s²) C†` with orthonormal columns; traces of powers and, by interpolation, sums over eigenvalues follow.
* **C44** the compressing product (`Mps/VarProd`, `VarSweep`): dense environments in files; the invariant says what each environment file holds, each step replaces the two-site tensor by an orthogonal projection.
* **C68** `ExpFiniteMPO` (`Mps/ExpMpo`, `Props/ExpSpec`, `ExpRun`): the loop keeps the relation of terms and sums to the exponential series with orthogonal projections; without losses the Taylor polynomial.
* **C31, C59** TDVP measurement and its preparation (refuted without `local_op_corr`).
* **C86** the result files (`Mps/Dump`, specification `Props/JsonSpec`: a reader of JSON texts of arrays and numbers with their rational values): the text is a sequence of pieces, each with its tokens whatever follows; induction over the records. The number printing of the library is a parameter whose texts are JSON numbers (so no infinities and NaNs); composed with C50 and C51. `C86_tdvp_file` composes it with C81: the records of a run of `TwoSiteFiniteTDVP` (`Mps/TdvpFile`), `C86_tdvp_parallel_file` with C83.

### 3.3 Files — `algorithm/vmps`, `algorithm/dmrg`, `algorithm/tdvp`, `algo_mpi/*/…master.h`

* **C87** the file names (`Mps/Names`, `Props/Names`): characters of the names as the code concatenates them; decimal digits are injective and contain no separator, the last slash splits directory and name. It is what justifies the structured keys (kind and number) of the directory models below. Refuted for tiny `tau` of `ExpFiniteMPO`.

`Disk/Core`: a machine with memory and a directory; operations load, remove, dump, free, compute; a failing load, a null pointer and a missing file are errors. Every write may be
torn by a crash (`tear`), every prefix of the operations is a crash point. `Disk/TwoSite`, `SingleSite`, `Noised`, `Boundary`, `Tdvp`, `Dmrg` give the programs; the specification is the same
sweep on an MPS without any files (`optSweeps` etc.). `Window*` and `Wp` are proof tools.
Tensors are opaque; the numerical kernel is an arbitrary function of the tensors it reads, so that equality with the file-free specification says that the right tensors are read.

* **C18–C21, C23, C24, C26, C28, C30** Whole runs equal the file-free specification; no load fails, no null tensor is used, the environment files are restored. N = 2 is refuted where the code fails.
* **C22, C54, C55** Every crash point with torn files: a restart uses environments consistent with the tensors on disk or fails at a load (refuted for a crash inside `FiniteVMPSInit` with boundaries).
* **C53** sequences of runs with different ranges (refuted for growing ranges). **C27, C61** signals and second `Execute` of the DMRG executor (race and assertion refuted).
* **C29** the time steps of TDVP. **C25, C56** noise schedule and convergence test.

### 3.4 Solvers — `algorithm/lanczos_*`

* **C32, C33** control flow and heap of the Lanczos and exponential solvers (`Algo/Lanczos`, `Algo/Expmv`): no access out of range for `max_iterations ≥ 2` (0 and 1 refuted), every vector freed once.
* **C57, C58** the numbers: the result is the lowest Ritz pair of the Krylov space, never worse than the start (`Algo/LanczosNum*`); the exponential. Exact real/complex arithmetic; LAPACK's tridiagonal solver
  is a parameter with its specification, proved satisfiable.
* **C62** the two-site optimisation is variational (`Mps/Vmps*`): the environments of the sweep of C18 as dense tensors, the effective Hamiltonian as a linear map on blocks. Proof: with isometries on both sides the embedding of a block into the
  chain keeps inner products and turns the effective Hamiltonian into H; then C57 for one update and an invariant (place of the canonical centre) for the sweeps, through C19 to the files.
* **C77** the single-site optimisation is variational (`Mps/Ss*`, `Props/SsNum`, `Props/SsNumEx`): the expansion as the code performs it, the noise of each update arbitrary, and the rule of C25 joined to it (`ssAdapt`). Proof: the expansion only adds
  columns that meet zeros of the next tensor, so the two-site block is unchanged; a site tensor with its isometric neighbour is a block of C62; then C57, an invariant for the centre, and C23 for the files.
* **C78** the two-site optimisation with noise is variational (`Mps/Tn*`, `Mps/VmpsGauge`, `Props/TnNum`, `Props/TnNumEx`), as C77 with blocks of two sites and the tensor behind them; which components of the fused leg the expansion appends is an arbitrary function `pick`. The boundary tensors (`vmpsG`) are those of
  `Mps/DmrgGauge`; a change of gauge inside a block keeps its dense environment (`grow_two_env`), which gives the hypothesis of C20/C24 on the environments. The same gives `C62_program` (`Props/VmpsBoundary`).
* **C73** two-site TDVP conserves norm and energy (`Mps/TdvpNum*`, `Mps/OneSite`, `Mps/TdvpRun`): as C62, and the tensor of a single site next to a right isometry is a block, so the effective Hamiltonian of a site is H restricted to
  the states that differ only there. Then C58 for one evolution (`Algo/ExpmvExact`: the solver's vector as the exponential of the projected H) and the invariant for the schedule of C29, through C30 to the files.
  In the MPI version each evolution comes with its solver (`tdvpPlan`): the parallel one for the bonds inside a sweep, the serial one for single sites and the last bond.
* **C81** the whole serial TDVP program (`Mps/TdvpProg*`, `Props/TdvpProgram`): four directories and the MPS object; preparation (C59), environments, steps (C30, C73) and measurements (C31) composed by an invariant between the steps.
* **C82** the master of the MPI TDVP program (`Mps/TdvpProg`, `Props/TdvpMaster`): as C81 with `Normalize` of the first tensor, the sweeps of C73 with two solvers, and the stored values times the norm.
* **C74** from Hamiltonian terms to energies (`Mpo/Tensors`, `TensorFacts`, `LabelFacts`, `Dense`, `Props/HamEnergy*`, `HamHerm`): the tensor assembly of `Gen` on dense tensors, out-of-range labels an error. Proof: a counting
* **C88** the same for the single-site, the noised and the parallel programs (`Props/HamAllSpec`, `HamAll`): C74's MPO with C76–C79 and C84.
* **C89** dynamical correlation functions in Fock space (`Props/GreenSpec`, `Green`): C81 and C83 with C74's MPOs and the operator tensors of C69–C71 with their strings; matrix elements between chain states are those in Fock space, the start is projected to the allowed occupations.
* **C90** static measurements in Fock space (`Props/StaticSpec`, `Static`): the sum over configurations of C50 and C51 is an inner product of chain vectors, hence of Fock vectors; products of Jordan–Wigner strings as in C69.
* **C91** `MPS::Dump`/`Load` (`Mps/MpsIo`, `Props/MpsIo`): the loops over the sites as folds over memory and directory, a crash is a prefix; induction on the number of sites done.
* **C92** whole calculation (`Props/WorkflowSpec`, `Workflow`, `WorkflowNoiseSpec`, `WorkflowNoise`): composition of C42 (with the isometries from C15), C91, one of C62 (`C62_run`), C79 (`C79_variational`), C75 (`C75_run`), C76 (`C76_variational`), C77 (`C77_run`), C78 (`C78_run_alive`) and C84 (`C84_alive`), C74 and C90; the flags of the object handed to VMPS are modelled in `Mps/VmpsObj` (all NONE at the end, but one LEFT after `TwoSiteFiniteVMPSWithNoise`; the parallel program with noise leaves tensors in the object and is covered for a new object only). The measurement theorems need flags that are not stale (`NoStale`: no `LoadTen`, or true flags); `C91_reload` shows when a reloaded MPS has none.
  valuation shows that no label outside the tables can occur; the assembled tensors hold the entries of the matrices, so their product is the value of C01; Fock space operators with real coefficients are Hermitian; then C62 and C73.
* **C93** the multiplied-out form of the super-block Hamiltonian (`Mps/Combine`): both forms are sums over terms; the sums over the legs are exchanged.
* **C95** sequences of programs (`Props/SequenceSpec`, `Sequence`, `SequenceFockSpec`, `SequenceFock`): a run is a relation between directory contents with the centre it accepts and the one it leaves; induction over the list, one step by C62, C75-C79 or C84, whose conclusions (canonical, not zero) are the hypotheses of the next; then C92's composition with the list in place of one program. The excluded case (`Props/SingleAfterTwo`): matrix elements of the first one-site problem without the isometry of the next tensor; violation by a product Hamiltonian on three sites whose one-site problem has a kernel inside the Krylov space. C78, C79, C84 and C76 hold for any centre up to the second site of the sweeps.
* **C96** kept temporary directories (`Props/KeptSpec`, `Kept`, `KeptNum`): induction over the calls; with C95 for the energies; the invariant is which environments of which Hamiltonian, for which range, the call before has left (refuted without the conditions).
* **C75** the DMRG executor is variational (`Mpo/MatRepr*`, `Mps/DmrgNum*`, `Mps/DmrgGauge`, `Props/DmrgNum`, `Props/DmrgHam*`): matrices of operators with null entries, block operators and the super-block
  Hamiltonian as the code multiplies them, default tensors a distinct outcome. Proof: a group of block operators is the dense environment of C62 cut along its MPO leg, because no row or column is empty, so the sweeps are those of C62
  with the dense MPO; the boundary tensors and the post-process only move matrices along bonds; then C26 to C28 for the files and signals.
* **C41** `IsQNCovered`. **C45** parameter parser.

### 3.5 MPI — `algo_mpi/**`

`Mpi/Core`: ranks with local states, one FIFO list of messages per ordered pair of ranks, receives by source and tag or from any source, standard-mode sends that may or may not block (chosen anew for every message).
A theorem about all executions quantifies over all step sequences (`Steps`). `Mpi/Farm` the five master/worker loops with invariant; `Mpi/Collect`, `Gather` the loops where workers only send; `Mpi/Sync` programs without wildcard
receives; `Mpi/Phase`, `PhaseSync` composition of phases without barriers; `Mpi/Prog` whole programs with collective operations; `Mpi/Orders*` the two-site programs.

* **C34–C37, C39** every task done once, no deadlock, schedule independence, term ownership, replies in place. **C63** terms handed over unmixed.
* **C38** the whole two-site VMPS (with and without noise) and TDVP programs: every execution ends, no rank gets anything it does not expect, temporaries are freed exactly once, the result is that of one process.
* **C76** the whole parallel DMRG program (`Mpi/DmrgProg`, `DmrgPhases`, `DmrgRun`, `Props/MpiDmrg`): the tree of MPI calls of master and worker, files as in C26. Each loop is a phase with its own invariant
  (`good_dyn`, `good_static`, `good_growOps`, `good_row`); the phases are composed along the serial program by induction over sweeps and sites.
  Its numbers (`Algo/LanczosStep`, `Mpi/DmrgEng`, `DmrgEngRun`, `Props/MpiDmrgNum`): the same programs with dense tensors; the master's Lanczos loop is a machine that takes one product at a time and is proved to compute
  what the serial solver computes. `TriLocal` says that the tridiagonal solver looks only at the entries it is given. Not covered: rounding, which differs with the order in which workers answer.
* **C79** the numbers of the parallel two-site VMPS (`Mpi/VmpsEng`, `VmpsEngRun`, `VmpsJobs`, `Props/MpiVmpsNum`): an instance of the abstract numerics of C38 with dense tensors; a worker's task is one sector of a leg. The memory of the
  master is that of the file programs of C20, so the jobs of the master are shown to be those programs; the sums over sectors are the operations of C62 wherever their legs fit.
* **C83** the numbers of the parallel TDVP (`Algo/ExpmvStep`, `Mpi/TdvpEng`, `TdvpEngRun`, `Props/MpiTdvpNum`): as C79; the exponential solver of the master is a machine fed with products, proved equal to the solver of C58; the tasks of
  a leg make up the whole contraction without assumptions on the legs, so every execution ends with the files and the table of C82 whenever that run succeeds.
* **C84** the numbers of the parallel two-site optimisation with noise (`Mpi/TnEng`, `TnEngRun`, `Props/MpiTnNum`): as C79, with the expansions: each worker contributes the appended components of the fused tensor of one sector, the sum is the
  serial expansion (`join_expR`, `join_expL`). The jobs carry the noise of their sweep, the serial program counts its updates; `Counts` relates the two.
* **C40, C54, C55, C64** threads of the MPI noised program (`Disk/Threads`, `Disk/NoisedMpi`, `Props/Threads`): small-step semantics of a main thread that starts and joins a load and a dump thread; footprints of every operation are proved; a general theorem reduces all interleavings, and all crash points of all interleavings, to the sequential program.

## 4. What is not modelled

* The tensor library: contraction, SVD, QR and LAPACK are parameters with stated laws, or dense tensors without quantum-number blocks; fermionic sign conventions of QLTensor.
* Floating point: exact arithmetic (or any arithmetic with the stated order laws in C25). `size_t`/`long` are `Nat`/`Int` without wrap-around except where a property is about underflow; there the model has an error outcome.
* Convergence, performance, GPU code, printed output, contents of log files.
* The operating system beyond: a remove is atomic, a write may be torn at any point, reads return what was written.
* MPI's own correctness: reliable, non-overtaking order per pair of ranks. A tensor is one message, except in C63. Collective operations are built from messages with their own tag. An MPI implementation with fewer synchronisations in its broadcast is not distinguished.
* The parallel SVD of the tensor library: parameter with the law that it ends with the local result, instantiated by a small exchange.
* Each property's note in `MANIFEST.json` names what is special to it.

## 5. Defects of the code found on the way

Each one marked (T) is a theorem about the model of the unchanged code.

* MPO: repeated one-site terms are dropped (T, C01); tail insertion strings start at the last operator, flipping signs (T, C08); no terms is undefined behaviour (T, C13); the infinite machine accepts no terms (T, C46), `iMPOGenerator` reads identity operators out of range for gaps in later cells and refuses default insertion sites (T, C85), its `Gen` has no return statement;
  `CoefRepr::ToString` and `FSMNode::Site()` use wrong members.
* Containers: self copy-assignment clears (T, C16); `LoadTen` keeps the old canonical flag (T, C15). `Reverse`'s mirror branch is unreachable; `DirectStateInitMps` with one site leaks; `FiniteMPSAdd` fails for one site and in place (T, C49).
  `GetEntanglementEntropy` returns zero for order 0 (T, C80), NaN for order 1 if a singular value vanishes, and is undefined without sites (T, C80). Four-site disk measurement leaves tensors in memory (T, C43). Equal sites in multi-site measurements fail (T, C51). Results without sites cannot be written, the times of the first dynamical result are written with 6 digits only (T, C86). `Load` into an MPS that was centralised keeps its flags and centre, so later measurements are wrong; `Dump` over an older MPS is not atomic, and `Dump` of an empty slot writes a file that cannot be read (T, C91).
* `FiniteMPO`: `+=` on one site loses the right operand, `Normalize` without a centre normalises only the first tensor (`Trace` and every non-const access drop the centre), `MpoAllScale` leaves false flags, `Load` of a directory with centre −1
  keeps old flags, a product into one of its operands is undefined (T, C65). The compressing product on two sites or without sweeps returns the guess with false flags (T, C44), so that `ExpFiniteMPO` on two sites uses -τH/2 as term of second order (T, C68); its last order is one less than `max_taylor_order`. `SimpleProduct` has no return statement. `ExpFiniteMPO` prints `tau` with six decimals into its directory names, so that tiny values share them (T, C87). The compressing product uses the environment names of VMPS in its directory.
* `tJOperators`: `bdnc_multi_bupa` and `bupc_multi_bdna` are exchanged (T, C70). A copied `HubbardOperators` keeps references into the original object (not modelled).
* Two-site VMPS: two sites fail (T, C18, C21); stale environments when the range grows again (T, C53); a crash during initialisation can leave stale environments (T, C55); a crash can leave a mixed state (T, C22).
* Single-site VMPS and two-site VMPS with noise: noise together with truncation can turn the MPS into zero (T, C77, C78).
* Single-site VMPS directly after the serial two-site VMPS: the centre is at site 1, the program starts at site 0 without moving it; its first energy is false and it can turn an exact ground state into zero (T, C95).
* A temporary directory kept between calls: single-site VMPS stops in the directory of a two-site call; single-site, two-site, single-site uses a stale right environment silently; so does any call for another Hamiltonian, and a two-site call after a noisy one with a smaller range (T, C96).
* Noise: an empty noise list reads outside the vector (T, C25); zero sweeps return an uninitialised energy (T, C56).
* Lanczos: `max_iterations` 0 and 1 access out of range (T, C32); MPI exponential solver drops the norm of the initial state (T, C58); the MPI solver reports one iteration less.
* DMRG executor: a signal after the last look of a sweep is handled as finished (T, C27); the second `Execute` fails an assertion (T, C61); failing reads of block operators are ignored.
* TDVP: two sites dereference a null pointer (T, C30); without `local_op_corr` results are written out of range (T, C31) and preparation loads the wrong file (T, C59); an existing directory of initial tensors is used without check; with `measure_temp_path` equal to `temp_path` the right blocks of the measurement take the names of the environments of the sweep, which nothing prevents (the names are those of C87).
* MPI: one process hangs (T, C35).
* MPI noised program: `NoisedVMPSPostProcess` leaves tensors in memory, a second call on the same MPS object fails an assertion (T, C64); with an empty list of noises it runs the plain two-site program and then goes on with an uninitialised noise.
  At a right bond pointing inwards the serial expansion decomposes the MPO tensor, the MPI one does not (not proved; C84 leaves the expansion tensors arbitrary).
* Parameter parser: `ParseSizeTVec` accepts negative and fractional entries; `ParseInt` truncates fractions, accepts booleans, wraps large integers (T, C45).

## 6. Axioms of each theorem

Printed by `#print axioms` for every theorem named in `MANIFEST.json`:

* `Classical.choice`, `Quot.sound`, `propext` (320 theorems): `C01_generated_mpo_exact`, `C01_generated_mpo`, `C01_gen_returns_sum`, `C01_duplicate_one_site_term_lost`, `C02_compression_preserves_operator`, `C02_compression_preserves_operator_any_labels`, `C03_compression_never_aborts`, `C04_bond_dimensions`, `C05_state_numbering`, `C07_sign_normalisation`, `C07_single_term`, `C08_string_between`, `C08_string_tail_exact`, `C08_tail_sign_violated`, `C08_explicit_sites`, `C09_labels_stable_injective`, `C09_label_zero_is_one`, `C10_sparse_matrix_refines_table`, `C10_equality`, `C11_coef_sound`, `C11_op_sound`, `C11_split_sound`, `C12_column_grouping`, `C12_one_bond`, `C13_gen_safe_iff_some_term`, `C14_centralize`, `C14_canonical_form`, `C14_left_step_local`, `C14_right_step_local`, `C15_flags_truthful`, `C15_center_truthful`, `C15_load_keeps_stale_flag`, `C16_containers_are_values`, `C16_unique_ownership`, `C16_all_freed_exactly_once`, `C16_self_assignment_clears`, `C16_copy_is_deep`, `C16_moved_from_is_empty`, `C17_reverse`, `C17_reverse_state`, `C18_sweeps`, `C19_final_mps`, `C18_two_sites_violation`, `C20_boundary_envs`, `C20_vmps_run`, `C21_boundaries`, `C21_check`, `C21_two_sites_violation`, `C22_restart`, `C22_restart_sweeps`, `C22_no_stale_environment`, `C22_mixed_state_violation`, `C23_single_site`, `C24_sweeps`, `C24_noised`, `C26_run`, `C28_soft_stop`, `C27_emergency`, `C27_resume`, `C27_late_partial`, `C29_times`, `C29_symmetric`, `C30_tdvp`, `C30_no_stale_environment`, `C30_tdvp_mpi`, `C30_no_stale_environment_mpi`, `C30_two_sites_violation`, `C31_measurement`, `C31_results`, `C31_without_correlations_violation`, `C32_lanczos`, `C32_small_limit_violation`, `C32_expmv`, `C33_lanczos`, `C33_expmv`, `C34_tasks_once`, `loop_ends`, `C35_no_deadlock`, `C36_schedule_independent`, `C36_product`, `C36_static`, `C37_dynamic_terms`, `C37_init_operators`, `C38_jobs`, `C38_vmps`, `C38_tdvp`, `C39_pairs_kept`, `C39_operators_in_place`, `C40_sweeps`, `C40_program`, `C41_exact`, `C41_inclusion`, `C42_direct`, `C42_zero_div`, `C42_direct_state`, `C42_zero_div_state`, `C42_extended`, `C52_disk_one_site`, `C52_disk_selected_sites`, `C52_disk_two_site`, `C52_disk_two_site_all`, `C43_four_site_memory`, `C43_four_site_violation`, `C44_product`, `C44_no_update`, `C44_short`, `C45_missing`, `C45_wrong_type`, `C45_right_type`, `C45_try`, `C45_try_sizes`, `C45_floats`, `C45_sizes_violation`, `C45_int_violation`, `C46_infinite_machine_accepts_no_term`, `C47_two_operator_overload`, `C47_one_operator`, `C48_inner_product`, `C48_conjugate_symmetric`, `C49_sum`, `C49_single_site_wrong`, `C50_one_site_values`, `C51_multi_site_values`, `C51_multi_site_values_uniform`, `C51_two_site_strings`, `C51_equal_sites_fail`, `C52_disk_four_site`, `C53_nested_runs`, `C54_no_stale_environment`, `C54_restart`, `C54_noised_no_stale_environment`, `C54_threads_no_stale_environment`, `C55_restart_mpi`, `C55_restart_noised`, `C55_restart_threads`, `C57_lanczos`, `C57_never_worse`, `C57_converged`, `solver_exists`, `C58_expmv`, `C58_exact`, `C58_exact_full`, `C58_mpi_norm_violation`, `eig_exists`, `C59_prepare`, `C59_right_canonical`, `C59_without_correlations_violation`, `C61_second_execute_violation`, `C62_update`, `C62_lower_bound`, `C62_truncation`, `C62_monotone`, `C62_run`, `C62_program`, `C63_task_and_terms`, `C63_operators`, `C64_second_call_violation`, `C65_product`, `C65_product_in_place`, `C65_identity`, `C65_scale`, `C65_all_scale`, `C65_add`, `C65_add_self`, `C65_add_single_site_violation`, `C65_trace`, `C65_centralize`, `C65_flags_truthful`, `C65_normalize`, `C65_normalize_unit`, `C65_normalize_uncentred_violation`, `C65_all_scale_violation`, `C65_dump_load`, `C65_load_violation`, `C66_truncate`, `C66_truncate_short`, `C66_error_bound`, `C67_truncate`, `C67_truncate_short`, `C68_exp`, `C68_taylor`, `C68_no_update`, `C69_operators`, `C69_fermion_operators`, `C69_hubbard_hopping`, `C69_same_site`, `fock_anticommutation`, `C70_operators`, `C70_tJ_hopping`, `C70_same_site`, `C70_composite_exact`, `C70_composite_violation`, `C71_operators`, `C71_heisenberg_hubbard`, `C71_heisenberg_tJ`, `C71_heisenberg_spin`, `C71_same_site`, `C72_charges_hubbard`, `C72_charges_tJ`, `C72_hubbard_hamiltonian`, `C72_tJ_hamiltonian`, `C72_spin_hamiltonian`, `C73_evolution`, `C73_conserved`, `C73_mpi_normalises`, `C74_mpo`, `C74_hubbard_mpo`, `C74_tJ_mpo`, `C74_spin_mpo`, `C74_hubbard_vmps`, `C74_tJ_vmps`, `C74_spin_vmps`, `C74_hubbard_tdvp`, `C74_tJ_tdvp`, `C74_spin_tdvp`, `C75_mat_repr`, `C75_super_block`, `C75_run`, `C75_emergency`, `C75_hubbard_dmrg`, `C75_tJ_dmrg`, `C75_spin_dmrg`, `C76_run`, `C76_files`, `C76_product`, `C76_variational`, `C77_update`, `C77_alive_silent`, `C77_alive_nocut`, `C77_lower_bound`, `C77_energy`, `C77_monotone`, `C77_run`, `C77_adaptive`, `C77_no_noise`, `C77_noise_violation`, `C78_update`, `C78_alive_silent`, `C78_alive_nocut`, `C78_lower_bound`, `C78_energy`, `C78_monotone`, `C78_run`, `C78_run_alive`, `C78_adaptive`, `C78_no_noise`, `C78_noise_violation`, `C79_same`, `C79_variational`, `C80_entropy`, `C80_von_neumann`, `C80_empty`, `C81_tdvp_program`, `C82_tdvp_master`, `C83_same`, `C83_tdvp_parallel`, `C84_same`, `C84_noises`, `C84_variational`, `C84_alive`, `C85_no_term_accepted`, `C85_string`, `C85_gap_violation`, `C85_one_site_violation`, `C85_null_insertion_violation`, `C85_reorder`, `C86_file`, `C86_real`, `C86_complex`, `C86_dynamic`, `C86_no_sites`, `C86_one_site_file`, `C86_multi_site_file`, `C86_tdvp_file`, `C86_tdvp_parallel_file`, `C87_distinct`, `C87_history`, `C87_powers`, `C87_small_tau_violation`, `C88_hubbard`, `C88_tJ`, `C88_spin`, `C89_hubbard`, `C89_tJ`, `C89_spin`, `C90_hubbard`, `C90_tJ`, `C90_spin`, `C91_dump_const`, `C91_load_throws`, `C91_round_trip`, `C91_empty_slot`, `C91_crash`, `C91_reload`, `C91_reload_violation`, `C92_hubbard`, `C92_tJ`, `C92_spin`, `C92_hubbard_dmrg`, `C92_tJ_dmrg`, `C92_spin_dmrg`, `C92_hubbard_noise`, `C92_tJ_noise`, `C92_spin_noise`, `C93_combined`, `C93_hamiltonian`, `C94_sites`, `C95_sequence`, `C95_hubbard`, `C95_tJ`, `C95_spin`, `C95_single_after_two`, `C95_single_recovers`, `C95_single_after_two_violation`, `C96_kept_directory`, `C96_deleted`, `C96_as_deleted`, `C96_energies`, `C96_single_after_two_violation`, `C96_stale_file`.
* `Quot.sound`, `propext` (17 theorems): `C06_addTerm_order_independent`, `C17_reverse_twice`, `C20_init_envs`, `C25_preset`, `C25_zero`, `C27_violation`, `C31_all_cells`, `C35_single_process_hangs`, `C49_in_place_fails`, `C53_violation`, `C55_init_crash_violation`, `C56_energy`, `C85_insertion`, `C91_dump`, `C91_load`, `C91_swap_out`, `C94_equality`.
* `propext` (11 theorems): `C16_self_assignment_violated`, `C25_single_site`, `C25_two_site`, `C25_empty_violation`, `C41_out_of_bounds_violation`, `C42_zero_div_single_site`, `C56_no_sweeps_violation`, `C94_uniform`, `C96_stale_violation`, `C96_hamiltonian_violation`, `C96_range_violation`.

## 7. Tests against wrong programs

`seeded/LOG.jsonl` has one line per attempt: definition, edit, claim that breaks, theorems that failed, theorems that were tightened because they survived.
