# Formal model of ITensor (C++ v3) in Lean 4

Source modelled: the pinned tree in `/repo` (read as text; never built or run).
Lean project: `/verif/lean`, one module per area under `Verif/`.

## Trusted base

* Lean 4.33.0 kernel.  No axioms are added by this project.  Property theorems depend on at
  most `propext`, `Classical.choice`, `Quot.sound` (checked with `#print axioms`, see
  `lean/Verif/Audit.lean` once present).  No `sorry`, `native_decide`, `bv_decide`.
* The reading of the C++ source: the only link between theorem and code is that each Lean
  definition mirrors the cited lines.  Every definition names file and lines.
* Arithmetic: element values are taken from a commutative ring (or a linearly ordered field
  for truncation) instead of IEEE doubles.  Rounding, NaN and overflow of floating point are
  outside the model.  `int`/`long`/`size_t` are `Int`/`Nat` unless a property is about wrap-around
  (the 64-bit key comparison of tag and QN names is modelled on the 8 bytes).
* Linear-algebra kernels (BLAS `gemm`, LAPACK svd/eigen) are parameters whose mathematical
  contract is assumed (matrix product; factors orthogonal).  HDF5, OpenMP runtime, the file
  system and the memory allocator are modelled by their contracts (a file maps name to last
  written contents; any interleaving of tasks is possible).
* C++ undefined behaviour (out-of-bounds access, use of a null buffer) and thrown `ITError`s are
  distinct outcomes of the modelled functions (`Res.ok`, `Res.throw`, `Res.ub`).

## Conventions

* `Verif/<Area>/Model.lean` (or `<Area>.lean`): definitions that mirror code, each citing lines.
* `Verif/<Area>/Spec.lean` or a `Spec` section: independent specification.
* `Verif/<Area>/Props.lean`: the theorems named in MANIFEST.json; next to each a concrete
  `example` that satisfies its hypotheses.
* Where the property is false of the code, a theorem `..._counterexample`/`not_...` proves the
  negation on a concrete witness and a `_partial` theorem proves what remains.

## Plan per property

| id | model | proof |
|---|---|---|
| C01 | `TagSet` as 4-slot array + size + prime level, add/remove/has loops as written, UB outcome on slot 4 | refinement to `Finset`-like membership by induction over operation lists; UB exactly on the full-set removal |
| C02 | same | sorted no-duplicate canonical form is an invariant; sorted lists with same members are equal |
| C03 | byte-level write/read of all 4 slots | round trip under "stale slots empty"; counterexample after `noTags` |
| C04 | replaceTags/setTags/prime | membership characterisation |
| C05 | IndexSet prime ops as list maps | pointwise characterisation given temp level unused |
| C06 | QN as 4 slots sorted by name; combine loop as written | abstract a QN to a function name -> value; show `+=` is pointwise addition mod modulus when names fit |
| C07 | `==`, `<` merge walks | characterise by the abstraction; order laws |
| C08 | combine with overflow | counterexample, partial theorem under capacity |
| C09 | binary/h5 read and write | round trip; counterexample for h5 |
| C10 | sector walk | induction over sector list |
| C11 | IndexSet algebra functions | membership + nodup + order theorems |
| C12 | contractIS + computeLabels | membership/nodup; label equality iff index equality |
| C13 | replaceInds through temp prime | pointwise substitution theorem |
| C14 | Range strides/offset | bijection by mixed-radix induction |
| C15 | RangeIter, GCounter as step machines | trace of machine equals list of all multi-indices |
| C16 | Permutation, calcPerm | inverse laws |
| C17 | transform loop | list of visited (dest,src) offset pairs is a permutation of the expected list |
| C18 | CProps.compute + contract + gemm contract | functional equivalence to the sum over labels |
| C19 | contract with beta | counterexample and partial theorem |
| C20 | gemm task list over split complex | ring identity on matrices |
| C21 | getBlockOffsets / insertBlock | invariant |
| C22 | GetElt/SetElt with binary search | map refinement |
| C23 | PlusEQ | pointwise |
| C24 | loopContractedBlocks | sum over block pairs equals full sum |
| C25 | tasks per result block, interleaving semantics | commutation of disjoint tasks, all linearisations |
| C26 | combine/uncombine index maps and data | inverse |
| C27 | combiner sector construction | tiling invariant |
| C28 | Diag ToDense, contractDiag | pointwise; counterexample |
| C29 | heap of ref-counted stores, ManageStore operations | simulation with value semantics |
| C30 | InfArray with inline buffer, vector, data pointer | refinement to List for safe ops; counterexamples |
| C31 | Args over InfArray | map refinement; counterexample |
| C32 | autovector | refinement to total map |
| C33 | byte streams | `read (write x ++ rest) = (x, rest)` |
| C34-36 | truncate over a linear ordered field | loop invariants; counterexamples |
| C37 | block selection loop | counting argument |
| C38 | SweepSetter machine | closed form |
| C39 | sweepnext | trace theorem, divergence theorem |
| C40 | MPS limits with abstract site status | invariant over operation sequences |
| C41 | disk cache machine | refinement; counterexample |
| C42 | pairwise sum | induction on length in any additive commutative monoid |
| C43 | plussers / addAssumeOrth block structure | block-diagonal product |
| C44 | LocalMPO cache, DMRG loop | invariant over sequences |
| C45 | same with disk | refinement for unit steps; counterexamples |
| C46 | shift | counterexample, from-left theorem |
| C47 | LocalMPOSet sum | linearity; counterexample for expect |
| C48 | HTerm.add signs | ring with (anti)commuting generators |
| C49 | AutoMPO.add | sum preservation |
| C50 | toMPOImpl automaton | product of operator-valued matrices = sum of terms; counterexample |
| C51 | rewriteFermionic, start/endTerm | ring-theoretic Jordan-Wigner; counterexample on Electron matrices |
| C52 | BondGate Taylor/Horner loop | algebra |
| C53 | lattices | arithmetic/induction |
| C54 | periodicWrap | arithmetic |
| C55 | op product names | induction on strings |
| C56 | inner products | transfer-matrix induction |
| C57 | isContiguous | address-set characterisation; counterexample for odd strides |
| C58 | subTensor, subIndex, groupInds | address arithmetic; counterexample |

Not expressible here (and why): convergence and accuracy of Davidson/Lanczos/SVD iterations and of
DMRG energies depend on IEEE arithmetic and LAPACK; performance; actual memory safety of the
compiled binary (only modelled accesses are checked).

## What each module leaves out

* `TagSet`, `QN`, `Index`: `print`ing and string formatting other than the HDF5 tag string; DEBUG-only
  checks; random ids (an id is any number, distinct where a theorem says so).
* `Tensor`: element type is a commutative ring; BLAS `gemm`/`gemv`/`axpy`/`dot` are exact operations;
  ranges given by lists of (extent, stride); memory is a function from addresses to elements.
* `QDense`: one element type (real/complex promotion only in `addReals`); `PrintIT`, `applyFunc`, norms
  and HDF5 of the storage are not modelled; the divergence and arrow checks of `daxpy` are not modelled.
* `QDense/Schedule`: the parallel loops are interleavings of atomic steps on sequentially consistent
  memory; a step of an iteration may touch only its own block of `C`, its own flag and private memory
  (this is an assumption on the code below `doContract`, `ProgOK`, shown satisfiable). BLAS inside a
  task is not itself modelled as parallel.
* `Util`: `InfArray` elements are plain values; pointers are (inline, heap, null, other object's heap);
  iterators and `operator<<` are not modelled. `Args`: numeric options are
  an arbitrary type. `autovector`: `T` has a default value; memory is a list.
* `Util/Stream`: little-endian two's-complement plain types of the sizes of x86-64; doubles are their 64
  bits; reading past the end of the stream is `ub`; opening of files is not modelled; HDF5 is only
  modelled for tag sets and QNs (C03, C09).
* `Decomp/Truncate`: `truncate` and the per-block selection loops of `svd` and `diagHermitian`, in an ordered
  field (no rounding; `1E-3*x` is `x/1000`); the singular value and eigenvalue solvers are not modelled.
* `MPS/Sweeps`: unbounded integers; the rows of a sweep table are given (file parsing is not modelled).
* `MPS/Lattice`: negative sizes are not modelled; coordinates are natural numbers.
* `MPS/Misc`: unbounded integers; the pairwise sum of two MPS is a parameter of the tree sum; site operators are
  tables over one index tagged "Site"; gates live in an algebra over a field (exact arithmetic).
* `Net/Named.lean`: tensors as functions of the values of named indices, products of them, trees of products. No code is modelled; it is the specification language for the next two.
* `Net/ITensor.lean`: `ITensor::operator*=` on dense storage without quantum numbers, on top of the model of `contract` in
  `Tensor/`. Scale factors (`USESCALE` off), diagonal, combiner and block storage are left out.
* `MPS/Inner*.lean`: `siteInds`, `uniqueSiteInds`, `linkInds`, `replaceSiteInds`, `replaceLinkInds`, `innerC(MPS,MPS)`, `inner(MPS,MPO,MPS)`,
  `inner(MPO,MPS,MPO,MPS)` on dense storage. The random ids made by `sim` are given by a function whose values are assumed fresh. Edge tensors
  `A(0)`, `A(N+1)` are default constructed. `inner(MPS,MPO,MPO,MPS)` and `traceC` are not modelled.
* `MPS/LocalMPO*.lean`: the bookkeeping of `LocalMPO` (slots, limits, files), with the product that makes an environment an arbitrary function; `LocalOp`
  is not modelled there. `LocalMPOSet`, `LocalMPO_MPS`: sums over members. Files always can be written and read back when they exist.
* `MPS/Limits*.lean`: the orthogonality limits of `MPS` and the functions that change them; factorizations are functions that meet the specification
  `Factor` (one factor orthogonal, link indices kept) and, for `C63_gauge`, `Keeps` (no truncation). Tags of the new link are left out.
* `MPS/Dmrg.lean`: the loops of `DMRGWorker` with an arbitrary eigensolver. Left out: measurement, printing, `checkDone` (a run stopped by the observer is
  a run with fewer sweeps), and that the environments held by `LocalOp` are pointers into `PH_`.
* `MPS/Disk.lean`: `setSite`, `setBond`, `initWrite`, `doWrite`, `read` of `MPS` with an arbitrary type of tensors. Left out: references returned by `psi(i)`
  and `psi.ref(i)` that are kept while other sites are accessed (the tensor behind them may be moved to disk), a user storing a default
  constructed tensor, copying the directory.
* `Net/Diag.lean`: `GetElt`, `ToDense`, `Contract` of `Diag` storage, `contractDiagPartial`, `contractDiagFull`, with storage sizes and
  bounds. Left out: `QDiag`, the argument `astarts` (used by `QDiag` only), real and complex element types, norm, printing.
* `Net/Add.lean`: `daxpy`, `operator+=`, `operator-=` with the `PlusEQ` tasks of `Dense` and `Diag`. Left out: real and complex element types,
  `scale` (not compiled in), `PlusEQ` of scalar storage.
* `Net/Mixed.lean`: `operator*=` for any combination of dense and diagonal operands.
* `MPS/Sum.lean`: `plussers` without quantum numbers and `addAssumeOrth` up to its call of `orthogonalize`. Left out: `plusEq` (which orthogonalizes both
  operands first), `sum` of several states, the branch of `plussers` for quantum numbers, a site without any site index.
* `AutoMPO/Terms.lean`: `SiteTerm`, `HTerm::add`, `HTerm::operator*=`, `LessNoCoef`, `AutoMPO::add`, the accumulator of `+=` with the comma
  operator. Left out: `HTerm::operator==` (which reads past the end), printing, `isFermionic` in debug builds, the fact that the error of
  the destructor ends the program. The coefficients are exact; `abs(coef) == 0.0` is a comparison with zero.
* `AutoMPO/Exact.lean`: `toMPOImpl` for given values of all site indices, so that each tensor is a matrix over its two links. Left out: the quantum
  numbers of the links except for the order of each basis, which may be any permutation; the errors of operators which a site does not know.
* `AutoMPO/Sites.lean`: the operators of `FermionSite`, `ElectronSite` and `tJSite` as matrices, `SiteSet::op` (without `Proj`), `fermionicTerm`,
  `rewriteFermionic`, `computeProd`, `decomposeTerm`, and the part of `partitionHTerms` which selects the operators of a site. Names such as
  `Adag` stand for hard-core bosons; the theorems do not cover terms which use them, nor product names such as `Cdagup*Cup`.
* `AutoMPO/Svd.lean`: `partitionHTerms`, `toMatrix`, `compressMPO` (without `IsExpH`), `constructMPOTensors` and `svdMPO` for given values of all
  site indices. An element of a link is a quantum number and a place in its block; the order of the blocks other than that of zero is left out.
  The matrices `V` are arbitrary: the theorems assume `M V V† = M`, which `keeps_of_svd` derives from the specification of the decomposition.
  Left out: `forceType`, `Infinite`, the error of `QNblockSize` for terms with flux. `CheckQN` is read under the name `CheckQN=` and so
  always has its default.
* Combiners without quantum numbers (`Net/Combine.lean`): `combiner`, `combine` and `permuteStore` of combiner.cc in full. The
  identity of the combined index is a parameter which no index of the tensor has. `combinedIndex` and products of two combiners are left out.
* Combiners of QN indices (`QDense/Combiner.lean`): the QN branch of `combiner` (itensor.cc) with the storage `QCombiner`. All the
  indices must have quantum numbers (`nblock > 0`). Identity and tags of the combined index are parameters.
* Combining and uncombining block-sparse tensors (`QDense/Combine.lean`, `QDense/Uncombine.lean`): `combine`, `uncombine` and the
  `Contract` tasks of qcombiner.cc. Contents of new memory before it is written are a parameter. The arrow check of `operator*=`
  is not part of them; the theorems take indices with the arrows it demands.
* Removing quantum numbers (`QDense/RemoveQNs.lean`): `removeQNs(ITensor)` for `QDense` storage. The counter is made anew for each block
  (the code resets all of its state); tensors without indices are not covered.
* Diagonal storage (`Diag/Ops.lean`, `QDense/QDiagDense.lean`): element-wise operations, norm, sum, `removeQNs` and `toDense`. One pair of numbers over a commutative ring
  stands for both number types, with a flag; `norm` is modelled by its square. Printing and `ITensor::randomize` are not modelled.
* Shared storage (`Store/*.lean`): `PData`, `CPData`, `ManageStore` and the dispatch of tasks. `std::shared_ptr` is a heap with reference counts; a task is a program of reads and writes
  through its references. That every `doTask` of the library has one of the shapes of `Store/CowTasks.lean` was checked by reading, not proved. One thread; lazy storages are not registered and not modelled.
* Block-sparse SVD (`Decomp/Svd*.lean`): the branch of `svdImpl` for QN tensors and `GetBlocks`. The decomposition of one dense block (LAPACK) is an assumption (`IsSvd`); numbers are exact;
  the choice of tags, `Show*` output, `Spectrum` and the scale of the tensor are not modelled.
* `davidson` (`Solvers/Davidson.lean`): vectors are elements of an inner product space and `A.product` is a linear map on it; `diagHermitian` of the small matrix is a parameter with
  the specification `DiagOK` (met by the spectral theorem, `exists_diag`); numbers are exact; random vectors are arbitrary nonzero vectors. Output and timers are left out.
* `gmres` (`Solvers/Gmres.lean`): vectors as for `davidson`, `std::sqrt` of complex numbers is a parameter; numbers are exact and a division by zero is the outcome `ub`. Options are not negative.
* `expPade` (`Expo/Pade.lean`): numbers are exact, `gesv` solves exactly or fails for a singular matrix, the conversion to `int` does not overflow; matrices are square by type.
* `applyExp` (`Expo/ApplyExp.lean`): numbers are exact, so orthogonality is not lost; a division by zero is `ub`; output is left out; `MaxIter` is not negative.
* DMRG as a numerical calculation (`MPS/DmrgNum.lean`): exact numbers, no quantum numbers, one operator (`LocalMPO`), indices as
  positions 0..dim-1; the environments are kept with the bond they belong to; the factorization in `svdBond` is given by its specification.
* `gateTEvol` (`MPS/TEvol.lean`): as for `DmrgNum`; gates on sites which are not neighbours, observers and output are left out.
* `applyMPO` (`MPS/ApplyMPO.lean`): the method `DensityMatrix` only; as for `DmrgNum`, with `diagHermitian` given by its specification (`EigOK`);
  writing the environments to disk and the comparison of site indices are left out.
* `MPS::orthogonalize` (`MPS/Orthogonalize.lean`): as for `applyMPO`; states kept on disk, for which it is an error, are left out.
* `arnoldi` (`Solvers/Arnoldi.lean`): exact complex numbers; `eigen` of the small matrix is a parameter which is assumed to be right; `Npass` at least one.
* `diagHermitian` with quantum numbers (`Decomp/Hermitian.lean`): as for `svd`, the decomposition of one block is a parameter with its specification (`IsHerm`, met by some decomposition of every
  Hermitian complex matrix, `exists_herm`); the product in `expHermitian` is taken element by element.
* Truncated sums (`MPS/SumNum.lean`): states as numbers, as for `orthogonalize`; the names of indices, the change of prime levels and an operand which is the same object are in `MPS/Sum.lean` (C43); `ResultIsZero`
  is thrown only with quantum numbers, which are left out.
* Site types (`Sites/`): tags of the indices, sites made from a given index (`SHalfEdge` and reading), the names of states of fermions and clock spins are left out; all quantum numbers of an index have the same names.
* Exponentials of sums of terms (`AutoMPO/ToExp.lean`): the elements of the tensors, not the quantum numbers of the links.
* Flux of tensors (`QDense/Flux.lean`): one type of elements, block-sparse storage only, all indices with quantum numbers;
  `set` on a tensor of order 0, `fill`, `generate`, `randomize` and tasks on diagonal storage are not statements of the programs.
* Input files (`Util/Input.lean`, `Util/InputTable.lean`): characters of the C locale; `GetReal` and `GetLong` are left out and the reader of a `Real` in a table of sweeps
  is a parameter; the messages printed are left out; a file does not change while it is read.
* Fitting (`MPS/FitApply.lean`): two sites in the centre, without `Normalize` and `Noise`; `x`, `K` and `Kx` have the same length and `K` does not
  change the dimensions of the sites; legs have fixed places, so renaming the indices of `Kx` is left out.
* Fitting with one site (`MPS/FitOne.lean`): without `Normalize`; that the index `ci` is found in `P` follows from the fixed places of the legs and is
  not checked again.
* Runge-Kutta steps (`MPS/Integrators.lean`): a tensor is an element of a vector space; that all tensors at a place have the same indices is assumed.
* The observer (`MPS/Observer.lean`): the result of each optimization is data. `gateTEvol` never calls `checkDone`, so `TEvolObserver::checkDone` and its
  files STOP_TEVOL have no effect on it and are not modelled.
* Views (`Tensor/Views.lean`): all vectors and matrices live in one memory, so that reading past the end of one object is `ub` only if it is past the end of the
  memory. BLAS `daxpy`, `dscal`, `ddot`, `?gemv` are their documented effect. `realData` of complex views, `randomize`, printing and `resize` are left out.
* Several operators and excited states (`MPS/Worker.lean`, `MPS/Excited.lean`): as for a single operator (dense tensors, exact numbers, the local eigensolver by
  what it guarantees, noise off). The comparison of the quantum numbers of `psis` (dmrg.h:250-263; the overload with an observer does not make it) is left out, as
  are states `psis` of another length and `NumCenter`, which `LocalMPO_MPS` passes on for the states but not for the operator.
* `correlationMatrix` and `expect`: tensors with quantum numbers, link tags, the error of the real versions for complex tensors, ranges which go past
  the ends of the state and `checkConsistent` (an `assert`) are left out. The operators are given by their elements; how the site set makes them from
  their names is in C55 and C80. Whether a name is fermionic is input; `isFermionic` is in C48.
* Decompositions of matrices (`SvdRef`, `Layout`): numbers are exact (real or complex), so nothing is said about the accuracy for which the built-in SVD
  calls itself. LAPACK is an oracle that may report an error; what it promises is a hypothesis of each theorem, and `C93_lapack` and `C94_lapack` show that
  the promises can be kept. `Layout` covers the memory of `diagHermitian`, `QR`, `SVDRefLAPACK` and `diagGeneralRef` (real matrices). `expMatrix` and the
  checks of `DEBUG` are left out.
* QR with quantum numbers (`QrQN`): a tensor is a list of blocks with one flux, as it comes from the two combiners; the decomposition of a block is a
  parameter that may fail. The blocks of the new tensors have memory of their own (C68 is about their places in one array).
* The factorization in `svdBond` (`SvdBond`): the tensor is a matrix between the indices of the two sites, the diagonalization and the singular
  value decomposition are given by their specification (C93), numbers are exact; `UseOrigM`, `TraceReIm`, `ShowEigs`, the tags and quantum
  numbers are left out. `1./0` in `DoNormalize` is taken as undefined.
* `nmultMPO` (`Verif/MPS/NMult*`): quantum numbers; tags and primes (the pairs of site indices are numbers, the indices of `clust` and of the result are followed only
  where the density matrix of the last bond is formed); which of the products is best under `MaxDim`. `res.orthogonalize()` runs with its own defaults.
* `directSum` (`Verif/Net/DirectSum*`): quantum numbers (`itensor.cc:1139-1167`); the numbers generated for the new indices are given.
* `A/B` (`Verif/Net/NcProd*`, `Verif/QDense/NcProd.lean`): `InfArray` beyond 11 indices in `BtoA`; `checkArrows`.
* `permute` (`Verif/Net/Permute*`): diagonal storage with quantum numbers (`qdiag.h:287-290`); what happens to dense elements when an index is repeated.
* Product states (`Verif/MPS/InitState*`): the names of the site sets' states (`sites_(n,state)` is a parameter), the messages `checkQNs` prints, `inner` of states with quantum numbers.
* Traces of operators (`Verif/MPS/Trace*`): operators with quantum numbers, the warning about a dropped imaginary part.
* Products with diagonal tensors with quantum numbers (`Verif/QDense/DiagContract*`): complex mixed with real elements, tensors without indices.
* `factor` and `polar` (`Verif/Decomp/Factor*`, `Polar*`): quantum numbers, the option `AddTags`, the tags of the new indices; the result of `svd` is an argument described by `IsSvd`.
* `errorMPOProd` (mpo.cc:785-796) and `inner(MPO,MPS,MPO,MPS)` (mpo.cc:664-695): exact arithmetic, dense storage without quantum numbers; the functions which return only the real part and report an error for complex tensors are not modelled.
* `inner(MPS,MPO,MPO,MPS)` (mpo.cc:726-761): dense storage without quantum numbers, exact arithmetic; the functions which return only the real part and report an error for complex tensors are not modelled.
* HDF5 (`h5_write`, `h5_read` of index.cc, indexset.cc, itensor.cc, dense.cc, qdense.cc, mps.cc, mpo.cc): a group is modelled as a list of attributes and named members; the HDF5 library, util/h5 and the conversion of numbers and strings are not modelled, `long` has no bounds, and a file written only in part because of an exception is not looked at.
* `eigen` (decomp.cc:818-860, Decomp/Eigen.lean): dense tensors without quantum numbers, scale one; LAPACK is a parameter; dropping small imaginary parts and "FullDecomp" are left out.
* `HTerm::operator==` and `operator<` (AutoMPO/Compare.lean): numbers from an ordered field, without rounding and without infinities.
* `orthog` (algs.cc:364-404, Tensor/Orthog.lean): numbers from a field, without rounding; `norm`, the test for a small norm and the random vectors are parameters.
* parallel.h (Util/Mpi.lean): MPI is a queue for every pair of processes and tag, a send puts its message there (that nobody waits for ever if it is not buffered is shown separately, Util/MpiSync.lean), collective calls give every process its value; tags, the flag request and its cancelling, `int` bounds, `sum` and `allSum` are not modelled; what `itensor::write` and `read` do is a parameter.
* `LogNum` (real.h:67-336, Util/LogNum.lean): real numbers without rounding, overflow or NAN; without `DEBUG`; `approxEquals`, `real0` and the tests for the range of `double` are not modelled.
* `checkQNs(MPO)` and `putMPOLinks` (mpo.cc:290-432, MPS/CheckMPO.lean): what is printed is left out; of `putMPOLinks` only the divergences are modelled, in any commutative group.
* Site sets (siteset.h:41-131, 221-602, MPS/SiteStore.lean): a site is its type and its index; a stream is a list of integers and indices; `SiteSet::inds` and printing are left out.
* `LocalOp::size` and `LocalOp::diag` (localop.h:408-530, MPS/LocalOpSize.lean): `size` looks at indices with identity, dimension, prime level and the tag `Site`; `diag` is modelled with exact numbers and legs at fixed places, for one and two sites.
* Ranges (util/itertools.h:74-308, Util/Itertools.lean): the ranges of one call have one element type; `transform`, `zip_with` and the slicing of ranges are left out; the library itself does not use this header beyond including it.
* Option strings (args.cc:385-444, Util/ArgsString.lean): `strtod` is a parameter which gives the value and the number of characters read, or that the number is out of range; it sets no other `errno`; the locale is not modelled.
* Options on a stream (args.cc:140-160, 456-466, Util/ArgsStream.lean): numbers are 64 bits; an enum has four bytes; the members `sval_` and `rval_` which the type of a value hides are not modelled; a type read which is none of the four is undefined.
* Sums over processes (parallel.h:395-429, Util/MpiSum.lean): as for C111, sends are buffered; `+=`, `write` and `read` of the objects are parameters, and reading does not look at what follows the object; `sum` of a double (386-393) is one call of `MPI_Reduce` and is left out.
* Exchange of site indices (mpo.cc:271-288, MPS/SwapSites.lean): `swapInds` is taken as one step on a list of indices (C13 derives the index part from `replaceInds`); dimensions and arrows are left out, so the error for site indices of different dimension is not modelled.

## Disagreements between code and expected property (proved as counterexamples)

| theorem | what the code does |
|---|---|
| `C01_removeTag_ub` | `removeTag` on a full set reads slot 4 of a 4-slot array |
| `C03_noTags_counterexample` | `noTags` keeps stale tags; a written and re-read set differs |
| `C05_swapTags_match_counterexample` | `swapTags` with match tags loses tags |
| `C07_trichotomy_counterexample` | `<` on QNs is not total when the operands have more than four names together |
| `C08_add_drops_counterexample` | a fifth name is dropped silently by `+` |
| `C09_h5_counterexample` | HDF5 read of a QN with fewer than four names is wrong or throws |
| `C15_order_zero_ub`, `C15_zero_extent_runs` | range iteration of order 0 reads out of bounds; a zero first extent never stops |
| `C16_calcPerm_shorter_counterexample` | a shorter second list is not detected |
| `C19_accumulate_counterexample` | `contract` with `beta != 0` and permuted result adds to uninitialised memory |
| `C57_isContiguous_counterexample` | wrong for strides that do not come from a column-major range |
| `C58_groupInds_counterexample` | `groupInds` on a transposed contiguous view reads wrong elements |
| `C23_order0_counterexample` | adding to an order-0 QDense tensor without storage loses the summand |
| `C23_mixed_order0_counterexample` | order-0 complex += real reads past the end of the real storage |
| `C30_erase_counterexample` | `erase` on `ArrSize+1` elements leaves them on the heap: copies and `push_back` bring old elements back |
| `C30_swap_counterexample` | `swap` leaves a data pointer into the other object |
| `C30_moved_counterexample` | `push_back` on a moved-from array leaves a null data pointer |
| `C30_resize_counterexample` | growing within the inline buffer shows old elements |
| `C31_counterexample` | after removing one of exactly 8 options a copy of the `Args` has the removed one and lacks another |
| `C32_clear_counterexample` | `clear` leaves the old bounds; unchecked access and `dot` then read freed memory |
| `C33_index_counterexample` | `Index::read` into an index in use adds to its tags and keeps its QN blocks |
| `C33_tensor_counterexample` | reading a tensor without storage keeps the old storage |
| `C34_zero_counterexample`, `C34_ub_counterexample` | a zero spectrum keeps one value whatever `mindim`; bounds below one read `P(-1)` |
| `C35_counterexample` | the truncation error of the relative cutoff is scaled by the largest value |
| `C35_respect_counterexample` | `RespectDegenerate` does not update the truncation error |
| `C36_counterexample` | `RespectDegenerate` may keep nothing |
| `C37_counterexample`, `C37_negative_counterexample` | a value exactly at the upper bound, or a negative eigenvalue kept by `mindim`: the blocks keep fewer values than the truncation |
| `C53_coords_counterexample` | the second `y` coordinate recorded for periodic bonds is off by one around the cylinder |
| `C52_swap_counterexample` | a swap gate between sites of different dimension drops states or throws |
| `C56_AxBy_counterexample` | `inner(A,x,B,y)` on one site: the tensors are multiplied in twice, the result is the square of `<Ax\|By>` (mpo.cc:682-691) |
| `C56_match_counterexample` | `inner(A,x,B,y)` with different output sites: the operator with matched indices is computed and not used (mpo.cc:676-679) |
| `C45_step_counterexample` | with `doWrite(true)`, `position` moved by `NumCenter+1` bonds: the new left (right) limit is the old right (left) limit, whose tensor is written out and nulled, so `L()` is null (localmpo.h:657-661) |
| `C45_boundary_counterexample` | with `doWrite(true)` the boundary tensors given to the constructor are replaced by null ones (localmpo.h:635-640, 663-668) |
| `C45_off_counterexample` | `doWrite(false)` after `doWrite(true)`: environments in files are not read back, `R()` is null (localmpo.h:623-627) |
| `C46_right_counterexample` | `shift(j,Fromright,A)` tests `(j+1) != LHlim_` where `RHlim_` is meant (localmpo.h:520): always an error |
| `C46_first_counterexample` | `shift(1,Fromleft,A)` without boundary tensor multiplies with a null tensor (localmpo.h:505) |
| `C47_expect_counterexample` | `LocalMPOSet::expect` has the loop over members twice (localmposet.h:158-159): the sum is multiplied by the number of members |
| `C47_penalty_counterexample` | `LocalMPO_MPS::expect` leaves out the weighted projectors which `product` includes (localmpo_mps.h:60) |
| `C40_zero_counterexample` | `position(0)` is accepted: the centre is then at site 0 and site 1 counts as right-orthogonal though it is not (mps.cc:710-732); `position(N+1)` likewise |
| `C40_unlinked_counterexample` | when two neighbours have no index in common `orthMPS` does nothing but `position` still moves the limit over the site (mps.cc:648, 707) |
| `C41_off_counterexample` | `doWrite(false)` reads every tensor from a file; those never moved out of memory have none, which is an error (mps.cc:345, 378-393) |
| `C41_stale_counterexample` | `doWrite(false)` does not write the tensors in memory first: changes to them are lost (mps.cc:345) |
| `C41_dag_counterexample` | `dag()` has no check for writing to disk, unlike the functions next to it; it fails on the first tensor that is on disk (mps.h:110-116) |
| `C28_short_counterexample` | `v*delta(l,s)` with `dim(s) > dim(l)` has `Dense` storage of length `dim(l)` under an index of dimension `dim(s)`; with more indices remaining, elements beyond the diagonal throw, or repeat the first when the diagonal has length 1 (diag.cc:93-126) |
| `C64_delta_counterexample` | `delta(l,s) += D` for a diagonal `D` with the same indices, and `T += D` for dense `T`, are errors (diag.cc:227, no `PlusEQ` for mixed storage) |
| `C43_one_site_counterexample` | adding two states of one site ends with `std::out_of_range`: `first.at(1)` on a vector of length 1 (mpsalgs.cc:126) |
| `C50_on_site_counterexample` | in the exact conversion a term with two operators on one site loses the second and is added twice (autompo.cc:668-673, 790-803) |
| `C50_site_zero_counterexample` | in the exact conversion without quantum numbers an operator on site 0 is accepted and lost (autompo.cc:588-608) |
| `C50_sort_counterexample` | the order of `std::sort` allows another operator with quantum number zero before `HL` in the last basis, which the code takes for `HL` (autompo.cc:613-623, 824) |
| `C51_exact_counterexample` | in the exact conversion `Cup_1 Cdagdn_2` on electron sites has the wrong sign (autompo.cc:505-543) |
| `C65_odd_counterexample` | in the default conversion, terms with an odd number of fermionic operators which agree right of a link get each other's strings (autompo.cc:1079-1112) |
| `C65_small_counterexample` | the default conversion drops terms with coefficients below 1E-14, whatever the size of the others (autompo.cc:1277) |
| `C65_names_counterexample` | in the default conversion, terms with `C` and `A` operators on one site can be taken for one term (autompo.cc:141-166, 1093-1112) |
| `C26_shared_counterexample` | `combine` (combiner.cc:62-80) uncombines when the tensor has the combined index and does not look at the other indices: if the tensor also has one of them, the result has a repeated index instead of the sum over both. |
| `C26_qn_missing_counterexample` | A QN combiner with an index the tensor lacks is an error only in debug builds; in a release build the permutation leaves its range (the dense combiner throws). |
| `C66_complex_counterexample` | A diagonal tensor with quantum numbers and real stored elements times a complex number reads deleted storage (qdiag.cc:232-246). |
| `C66_apply_counterexample` | `apply` with a function that changes the number type on a tensor with a single value loses the length (norm 0) or, with quantum numbers, the elements (diag.h:163-170, qdiag.h:149-158). |
| `C66_generate_counterexample` | `generate` with a function of the other number type leaves length 0: norm and scaling are wrong (qdiag.h:203-217). |
| `C66_scalar_counterexample` | A diagonal tensor with quantum numbers, one value and no indices cannot be read (qdiag.cc:168). |
| `C67_sectors_counterexample` | `toDense` of a delta tensor whose indices are split into sectors differently puts elements at wrong places (qdiag.cc:620-621). |
| `C29_reference_counterexample` | A block obtained with `getBlock` and kept while the tensor is copied refers to the storage of both (itensor_impl.h:635-656). |
| `C68_equal_counterexample` | `svdOrd2` of a matrix with two sectors of equal quantum number on one index gives a `U` with equal columns (svd.cc:167-419); `svd` avoids it by combining first. |
| `Solvers.C69_targets_counterexample` | `davidson` with more than `MaxIter`+1 initial vectors reads `D(j)` beyond the end |
| `Solvers.C69_nan_counterexample` | two states in a two-dimensional sector: the second value returned is NaN because the loop ends after `++t` |
| `Solvers.C69_minimal_counterexample` | an excited eigenvector as initial vector is returned with its own eigenvalue, not the minimal one |
| `Solvers.C70_complex_counterexample` | `gmres` with complex numbers conjugates the coefficients of the orthogonalization and uses rotations which are not unitary: in one dimension, for `i x = 1`, the residual grows |
| `Solvers.C70_singular_counterexample` | `gmres` divides by zero for a singular matrix and reports convergence |
| `Solvers.C70_restart_counterexample` | `gmres` with `RestartIter` 0 does not end |
| `Expo.C71_zero_counterexample` | `expMatrix` of the zero matrix converts minus infinity to `int`, which is undefined (with `DEBUG` it throws) |
| `Expo.C72_tolerance_counterexample` | the error estimate of `applyExp` can be zero while the error is of order one; it then stops at once |
| `Expo.C72_maxiter_counterexample` | `applyExp` with `MaxIter` 1 returns the vector unchanged and prints no warning |
| `Expo.C72_null_counterexample` | `applyExp` of a vector with `H*phi` zero takes the exponential of the zero matrix, which is undefined |
| `DmrgNum.C73_two_sites_counterexample` | `dmrg` of two sites ends with an error, because `LocalOp` without environments counts as not set |
| `TEvol.C74_repeat_counterexample` | `gateTEvol` does not move the centre back to the first gate; with some lists of gates the second step ends with an error |
| `TEvol.C74_negative_counterexample` | `gateTEvol` with negative time and positive step does nothing and gives no error |
| `TEvol.C74_norm_counterexample` | `gateTEvol` returns the norm of the evolved state times the norm of the initial state |
| `ApplyMPO.C75_one_site_counterexample` | `applyMPO` of an MPO and an MPS of one site uses an environment which does not exist: an error |
| `ApplyMPO.C75_degenerate_counterexample` | `applyMPO` with `MaxDim` below the number of states of equal weight, and the default `RespectDegenerate`: zero vector for two sites, error for three |
| `Orthog.C76_one_site_counterexample` | `orthogonalize` of an MPS of one site uses an environment which does not exist: an error |
| `Orthog.C76_degenerate_counterexample` | `orthogonalize` with `MaxDim` below the number of states of equal weight, and the default `RespectDegenerate`: zero vector for two sites, error for three |
| `Arnoldi.C77_deflation_counterexample` | `arnoldi` with two vectors subtracts `λ|φ⟩⟨φ|`, which is wrong if `A` is not normal: the second vector is not an eigenvector |
| `Arnoldi.C77_smallest_counterexample` | `arnoldi` with two vectors and `SmallestReal` on a positive `A` returns the first vector again, with value 0 |
| `Arnoldi.C77_one_dim_counterexample` | `arnoldi` in one dimension returns the complex conjugate of the eigenvalue |
| `Svd.C78_absent_counterexample` | `expHermitian` of a matrix which stores no block for some sector gives zero there instead of the identity, e.g. for `S+S- + S-S+` on two sites |
| `SumNum.C79_cutoff_counterexample` | `plusEq` and `sum` orthogonalize an operand which has no centre with the default cutoff `1E-13` and not with the arguments given: with `Cutoff=0` the sum is not exact |
| `SumNum.C79_one_site_counterexample` | the sum of two states of one site ends with an error |
| `Sites.C80_s2_counterexample` | `"S2"` of `SpinTwo` sets the element (Dn,Dni') instead of (Dn,Dn'): it is not `6`, and with conserved `Sz` the call throws (spintwo.h:239) |
| `Sites.C80_tj_sx_counterexample` | `"Sx"` of `tJ` is `S+ + S-`, twice what it is for the other site types (tj.h:200-204) |
| `AutoMPO.C81_on_site_counterexample` | `toExpH` of a term with two operators on one site: the second operator is lost and the term counts twice (autompo.cc:1663-1673) |
| `QDense.C82_vector_counterexample` | `T.set({...},v)` with a vector does not check the flux: the tensor then has elements of different fluxes (itensor.cc:157-187, 209-241) |
| `QDense.C82_no_blocks_counterexample` | a tensor without blocks counts as flux zero: `set` of and `+=` with another flux throw, though `R += 0` works (qdense.cc:95-105, itensor.cc:1212-1213) |
| `Input.C83_newline_counterexample` | looking for a group that is not in a file whose last line has no line break reads an uninitialized character for ever (input.cc:197-209) |
| `Input.C83_parent_counterexample` | a group that stands after the end of its parent is taken for one inside it (input.cc:174-211) |
| `Input.C83_bracket_counterexample` | `a { x = 1 }`: the search for another key passes over the bracket and finds items outside the group (input.cc:243-254) |
| `Input.C83_comma_counterexample` | `s = up, t = dn`: getString returns `up,`; `q = no, ...`: getYesNo returns the default (input.cc:306-360) |
| `Input.C83_long_word_counterexample` | a word of 512 letters: the buffer has no terminator and is read past its end (input.cc:93-120) |
| `Input.C84_column_counterexample` | a table of sweeps without the column `noise` is read shifted, without an error (sweeps.h:430-442) |
| `Input.C84_empty_counterexample` | a table without rows: bond dimension zero for every sweep, without an error (sweeps.h:430-451) |
| `FitApply.C85_stuck_counterexample` | fitting never finds a product state orthogonal to the initial state, which by default is `x` itself (mpoalgs.cc:143-153, 367-415) |
| `FitApply.C85_one_site_counterexample` | fitting with one site reads `E[3]` of a vector of three elements (mpoalgs.cc:389, 437) |
| `FitOne.C86_reach_counterexample` | fitting with one site started from a product state never gives an entangled state, however many sweeps are made; no warning (mpoalgs.cc:311-365) |
| `Integrators.C87_hole_counterexample` | a default constructed element before the last tensor makes `rungeKutta4` and `midpointMethod` follow a null pointer (integrators.h:34, 46, 90) |
| `Observer.C88_odd_counterexample` | `EnergyErrgoal` is compared after sweeps of even number only (DMRGObserver.h:187) |
| `Observer.C88_both_counterexample` | with both goals set the calculation goes on until both are met; the comment says one (DMRGObserver.h:212-219) |
| `Observer.C88_zero_counterexample` | `EntropyErrgoal` zero disables `EnergyErrgoal` (DMRGObserver.h:187, 213) |
| `Observer.C88_uninit_counterexample` | an entropy goal with `PrintEigs` off (or `Silent`) uses `S` which is never initialized (DMRGObserver.h:61, 123, 202) |
| `Observer.C88_left_counterexample` | STOP_DMRG found by the sweep that meets a goal is not removed and stops the next calculation (DMRGObserver.h:196, 233) |
| `Views.C89_piece_counterexample` | a non-contiguous view times a vector uses wrong elements; the check is under `DEBUG` only (mat.cc:383-396) |
| `Views.C89_tall_counterexample` | `mult(M,x)` returns a vector of the size of `x` and writes past its end if `M` has more rows than columns (mat.cc:426) |
| `Views.C89_fromleft_counterexample` | `mult(M,x,fromleft)` does not pass `fromleft` on (mat.cc:427) |
| `Views.C89_self_counterexample` | `M = transpose(M)` copies within the same storage and loses elements (ten.h:690-695) |
| `Views.C89_subVector_counterexample` | `subVector` of a view with a stride shows wrong elements (vec.h:334-335) |
| `Views.C89_makeVecRefc_counterexample` | `makeVecRefc(p,size,stride)` ignores the stride (vec.h:313-319) |
| `Views.C89_empty_counterexample` | the product with a matrix without columns leaves `y` as it was (mat.cc:396) |
| `Views.C89_overlap_counterexample` | `&=` between overlapping views copies elements already overwritten (vec.cc:46-56) |
| `DmrgNum.C90_weight_counterexample` | with a weight smaller than the gap excited-state DMRG never becomes orthogonal; the energy returned includes the penalty (dmrg.h:234-272) |
| `DmrgNum.C90_two_sites_counterexample` | excited-state DMRG of two sites throws "LocalOp is null" (localmpo.h:383-390) |
| `DmrgNum.C90_empty_counterexample` | DMRG with an empty set of operators uses `front()` of an empty vector (localmposet.h:97, 103, 144) |
| `C91_same_counterexample`, `C91_same_complex_counterexample` | `correlationMatrix` takes the matrix as Hermitian when the two names are the same (mps.cc:1584), but `<C_2 C_1>` is not the conjugate of `<C_1 C_2>`: it gets the wrong sign, and `<S-_2 S-_1>` of a complex state becomes its conjugate |
| `C92_small_counterexample` | `expect` of a state whose norm is below 1E-20 is an error (mps.cc:168), though its expectation values are defined |
| `C94_fallback_counterexample` | if `gesdd` fails on a transposed matrix, the copy for `gesvd` starts where the first copy ended (algs_impl.h:385): behind the matrix |
| `C94_strided_counterexample` | `SVDRefLAPACK` reads the memory of a piece of a larger matrix as if it were contiguous (algs_impl.h:373) |
| `C94_qr_counterexample` | `QR` writes `R` on and above the diagonal only; `resize` keeps the numbers that were in `R` before, so below the diagonal they stay (algs.cc:48-80) |
| `C94_general_counterexample`, `C94_left_counterexample` | eigenvectors of a transposed general matrix: LAPACK's vectors belong to the transpose (algs.cc:320); with left vectors the function always ends in an error (algs.cc:327) |
| `C95_order_counterexample` | `qr` with `UpperTriangular` uses the number of the block at a place of the sorted list as the place of the block with that number (decomp.cc:1113-1115): for three sectors in a cyclically different order it writes to a block that does not exist |
| `C95_complete_counterexample` | `qr` with `Complete` and without `UpperTriangular` copies only as many columns of `Q` as the block has columns, and as many rows of `R`, with that number as the leading dimension (decomp.cc:1121-1149) |
| `C96_degenerate_counterexample` | `svdBond` respects degeneracies by default (mps_impl.h:42): of `↑↑+↓↓` with `MaxDim` 1 nothing is kept, the link has dimension 0 |
| `C96_noise_counterexample` | with noise the kept states are those of the density matrix with the noise: the state `↑↑` with `MaxDim` 1 and noise 2 is projected to zero (decomp.h:385-396) |
| `C96_svd_counterexample` | `svdBond` with `UseSVD` and `Noise` is an error (decomp.cc:169-170), although its comment says the density matrix is used "or need to use noise term" |
| `NMult.C97_cutoff_counterexample` | `nmultMPO` with `Cutoff` of `1E-12` or more, or with noise, and without `UseSVD`, ends with an error for any two operators: the last tensor of `res` is still that of `A`, whose indices are combined for the density matrix |
| `NMult.C97_one_counterexample` | `nmultMPO` of operators on one site ends with an error |
| `NMult.C97_lost_counterexample` | `nmultMPO` with default options returns the zero operator for a product that is not zero: the cutoff is relative to the product of the tensors on the left, whatever the rest of the chain does with it |
| `Net.C98_vector_counterexample` | `directSum` of two vectors returns a tensor whose storage has only the elements of the first: reading an element of the second reads beyond the end |
| `Net.C98_diag_counterexample` | `directSum` of a diagonal tensor and a dense one is an error |
| `Net.C99_scalar_counterexample` | `A/B` of two tensors without indices writes out of bounds |
| `Net.C99_diag_counterexample` | `A/B` with diagonal storage is an error |
| `Net.C99_qn_counterexample` | `A/B` with quantum numbers compares block numbers with labels, computes the flux from the wrong block of `B` and writes through a null pointer |
| `Net.C100_repeated_counterexample` | `permute(T,i,i)` of a tensor with indices `i,s` is not an error and returns a tensor with a default constructed Index |
| `MPS.C101_one_site_counterexample` | `MPS(InitState)` on one site dereferences a null index (with quantum numbers) or makes a tensor with a second index, on which `siteInds` and `inner` throw |
| `MPS.C101_arrow_counterexample` | `MPS(InitState)` on site indices with arrow `In` makes a state whose `totalQN` is not its flux and on which `checkQNs` is false |
| `MPS.C102_same_sites_counterexample` | `traceC(A,B)`, documented as Tr(AB), is Tr(A Bᵀ) when the two operators have the same two site indices |
| `QDense.C103_replace_counterexample` | a product with a delta tensor replaces an index but keeps the storage, also when the new index is split into sectors differently; an element is then wrong |
| `QDense.C103_full_counterexample` | the product of a vector and a diagonal matrix whose indices are split into sectors differently has wrong elements: `contractDiagFull` does not take the start within the block of the result into account |
| `Factor.Ex.C104_polar_counterexample` | `polar` of an operator `T(s',s)` with `s'` as the first group: the primed copy of `s` is `s'`, so it is summed over, `Q` is a number and `Q*P` is not the tensor |
| `C105_error_counterexample` | `errorMPOProd(y,A,x)` on a single site does not give zero when `y` is exactly `A x`: `inner(A,x,A,x)` multiplies the tensors of the site in twice (mpo.cc:683-691). |
| `C106_xABy_counterexample` | `inner(x,A,B,y)` on a single site gives the square of the matrix element: the tensors of the site are multiplied in as the first and again as the last (mpo.cc:748-756). |
| `C107_qn_counterexample` | An Index with quantum numbers of fewer than four names, written to an HDF5 file and read, has quantum numbers that add nothing, so the flux of every block is zero; with a quantum number without a name it cannot be read (qn.cc:541-545). |
| `C107_storage_counterexample` | A tensor with diagonal or scalar storage, or not allocated, cannot be written to an HDF5 file (itensor.cc:822, dotask.h:536). |
| `C107_edges_counterexample` | The tensors of an MPO at positions 0 and N+1 are not written to an HDF5 file, without an error (mpo.cc:967-980). |
| `C107_reuse_counterexample` | `h5_read` of `QDense` into an object with blocks of lower order reads past their end (qdense.cc:1063). |
| `C108_tags_counterexample` | `eigen(T,{"Tags=","Link,1"})` ends in an error: the combined index gets the prime level of the tags, and `eigDecompImpl` removes it (decomp.cc:600). |
| `C109_equal_counterexample` | `HTerm::operator==` of two equal terms reads `ops[ops.size()]`: no two terms compare as equal (autompo.cc:231). |
| `C109_cycle_counterexample` | `HTerm::operator<` has cycles for coefficients within the tolerance of each other, so sorting with it is undefined (autompo.cc:240-245). |
| `C110_random_counterexample` | `orthog(M,1)` of a matrix with a column in the span of those before: the random vector which replaces it is not made orthogonal, and `--pass` in the range-based loop has no effect (algs.cc:385-393). |
| `C111_overread_counterexample` | `Environment::broadcast` sends `rem+shift` characters with `shift = 2` from a string which has `rem` left: the second one is after the terminating zero (parallel.h:250, 264). |
| `C111_overflow_counterexample` | `Environment::broadcast` of data whose length is -1 modulo the size of the buffer: the receivers write one character past the end of their buffer (parallel.h:278). |
| `C111_bufsize_counterexample` | Two ends of a mailbox with different `Bufsize`: the first message is too long for the receiver; the sizes are not compared (parallel.h:452, 478-485). |
| `C112_zero_counterexample` | `LogNum(0)*LogNum(2)` is zero but not `==` `LogNum(0)`, `>` it and not `<=` it, since the logarithm of a zero is compared (real.h:204-206, 276-292). |
| `C112_pow_counterexample` | `LogNum(-2).pow(2)` is -4: the sign is kept (real.h:314-319). |
| `C112_div_counterexample` | Without `DEBUG`, `LogNum(1)/LogNum(0)` is zero (real.h:238-247). |
| `C113_never_counterexample`, `C113_arrows_counterexample` | `checkQNs(MPO)` throws for every MPO with four or more tensors: `linkIndex(H,i-1)` is the index of tensor `i-1`, not of tensor `i` (mpo.cc:349-376). |
| `C113_links_counterexample` | `putMPOLinks` adds `div(W(b))` to the quantum number of the outgoing link, which doubles the divergence of every tensor instead of making it zero; for one site `links.at(1)` throws (mpo.cc:403, 419-430). |
| `C114_copy_counterexample` | A `SiteSet` is a shared pointer and `set` writes through it, so setting a site of a copy sets it in the original (siteset.h:43, 347-352). |
| `C114_null_counterexample` | `SiteSet::set` on a default constructed set follows a null pointer, where the other members throw (siteset.h:347-352). |
| `C114_read_counterexample` | Reading an empty site set into one that is not empty leaves the old sites in place (siteset.h:441-451). |
| `C114_merge_mixed_counterexample` | `merge` of `MixedSiteSet`s chooses the type of a site by its new position, so after a first range of odd length the indices of the second range get sites of the other type (siteset.h:532-542, 601). |
| `C115_cache_counterexample`, `C115_null_counterexample` | `LocalOp::numCenter` does not reset `size_`, so `size` gives the number of the old setting; after `update(Op1,L,R)` it accepts 2, and `size` and `product` follow the null `Op2_` (localop.h:102-107). |
| `C115_qn_counterexample` | `LocalOp::diag` throws for every operator with quantum numbers: it multiplies with `delta` of the very index of the tensor, without `dag` (localop.h:432-445, 454, 470). |
| `C116_empty_counterexample` | A loop over `product` with an empty range that is not the last, and a last range that is not empty, dereferences the end of the empty range: the sentinel compares only the last iterator (itertools.h:146-158). |
| `C05_swapTags_equal_counterexample` | `swapTags("a,0","b,0")` on an index with both tags loses `a` |
| `C05_swapTags_full_counterexample` | `swapTags("0","1")` throws on every index with four tags and prime level 0, since the temporary tag does not fit |
| `C117_text_counterexample` | `Args("File=2x")` stores the number 2: the end of what `strtod` read is not looked at (args.cc:421-437). |
| `C117_number_counterexample` | `Args("Cutoff=.5")` stores a text, and `getReal` throws: only values which begin with a digit or a sign are tried as numbers (args.cc:421). |
| `C119_overflow_counterexample` | `allSum` with two or more processes overflows the buffer of the receivers when the message is one character short of a multiple of the buffer size (parallel.h:253-264, 421-429). |
