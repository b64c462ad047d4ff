{"id": "C01", "title": "TagSet behaves as a set of at most four names plus one prime level", "statement": "After any sequence of addTags, removeTags, setTags, noTags, replaceTags and prime-level calls that does not throw, hasTags(ts,t) answers exactly set membership of the tags added and not removed since, size() is the number of distinct tags and never exceeds four, and the prime level is the last one assigned.", "quantifier": "every finite sequence of tag operations on every starting tag set, every tag name", "why_tests_cant": "operation sequences and tag alphabets are unbounded; a test checks a few literals", "anchors": ["itensor/tagset.h:TagSet", "itensor/tagset.cc:TagSet::addTag", "itensor/tagset.cc:TagSet::removeTag", "itensor/tagset.cc:TagSet::hasTags", "itensor/smallstring.h:operator<"]}
{"id": "C02", "title": "TagSet equality ignores the order in which tags were added", "statement": "Two tag sets holding the same set of tags and the same prime level compare equal with operator== whatever order or repetition was used to build them, and two that compare equal hold the same tags.", "quantifier": "all pairs of reachable tag sets", "why_tests_cant": "needs the sorted-array canonical form to hold after every history, not in sampled ones", "anchors": ["itensor/tagset.h:operator==", "itensor/tagset.cc:TagSet::addTag"]}
{"id": "C03", "title": "TagSet binary write followed by read restores an equal tag set", "statement": "write(s,ts) followed by read(s,ts') into a default-constructed ts' yields ts'==ts for every tag set the API can produce.", "quantifier": "all reachable tag sets", "why_tests_cant": "the failing histories are those that clear tags first; example tests round-trip freshly built tag sets", "anchors": ["itensor/tagset.h:write", "itensor/tagset.h:read", "itensor/tagset.cc:TagSet::noTags"]}
{"id": "C04", "title": "replaceTags, setTags and prime change exactly what they name", "statement": "replaceTags(a,b) leaves a tag set not containing a unchanged and otherwise gives (tags minus a) plus b with b's prime level when both name one; setTags(b) gives exactly b; prime(n) adds n to the prime level and keeps all tags.", "quantifier": "all tag sets and argument tag sets", "why_tests_cant": "full argument space is unbounded, interactions of prime level and tag names are easy to miss by sampling", "anchors": ["itensor/tagset.cc:TagSet::replaceTags", "itensor/tagset.cc:TagSet::setTags", "itensor/index.h:Index::prime"]}
{"id": "C05", "title": "swapTags and swapPrime on an index set exchange exactly two values", "statement": "swapPrime(p,q) on an index set turns every matched index of prime level p into q and every one of q into p and leaves all others alone, provided the reserved temporary prime level is not in use; likewise mapPrime(p,q) maps p to q only. swapTags(a,b) exchanges the names and prime level of a with those of b on the indices which have them, and leaves the others alone, provided no index has both and the temporary tag is not in use.", "quantifier": "all index sets, all prime levels, all match patterns", "why_tests_cant": "the temporary-value trick is correct only if no collision occurs, a statement about all index sets", "anchors": ["itensor/indexset.cc:swapPrime", "itensor/indexset.cc:mapPrime", "itensor/indexset.cc:swapTags"]}
{"id": "C06", "title": "Quantum-number addition is a commutative group", "statement": "On QNs that fit (union of names at most four) += is commutative, associative, has the default QN as identity, q + (-q) equals the identity, and -= is addition of the negation; every named value of a sum is the sum of the named values modulo the modulus.", "quantifier": "all QNs with up to four named values and any modulus", "why_tests_cant": "group laws are universally quantified over values, names and moduli", "anchors": ["itensor/qn.cc:operator+=", "itensor/qn.h:QNum", "itensor/qn.cc:combineQN"]}
{"id": "C07", "title": "QN equality is an equivalence and the ordering is a strict order consistent with it", "statement": "operator== on QNs is reflexive, symmetric and transitive and treats missing names as zero; operator< is irreflexive, transitive, and exactly one of a<b, a==b, b<a holds, so QNs may be used as keys of ordered maps.", "quantifier": "all QNs", "why_tests_cant": "transitivity/trichotomy range over all triples", "anchors": ["itensor/qn.cc:operator==", "itensor/qn.cc:operator<"]}
{"id": "C08", "title": "QN arithmetic never silently loses a quantum number", "statement": "For QNs a and b, every name present in a or b is present (possibly with value zero) with the right value in a+b, or an error is raised.", "quantifier": "all pairs of QNs", "why_tests_cant": "the loss happens only at the capacity boundary", "anchors": ["itensor/qn.cc:combineQN", "itensor/qn.cc:QN::addNum"]}
{"id": "C09", "title": "Reading back a written QN gives an equal QN", "statement": "Binary write then read of a QN restores it exactly; HDF5 write then read restores a QN equal to the original that behaves identically.", "quantifier": "all QNs", "why_tests_cant": "all slot-fill patterns and moduli", "anchors": ["itensor/qn.cc:read", "itensor/qn.cc:write", "itensor/qn.cc:h5_read"]}
{"id": "C10", "title": "Every value of a QN Index belongs to exactly one sector", "statement": "For an Index with sector sizes m1..mn and any value v in 1..dim, the reported QN is the one of the unique sector whose cumulative range contains v, and the value/sector-offset pair reconstructs v.", "quantifier": "all lists of sector sizes, all values", "why_tests_cant": "unbounded number and sizes of sectors", "anchors": ["itensor/index.cc:IndexVal::qn", "itensor/index.cc:IndexVal::blocksector", "itensor/index.h:Index"]}
{"id": "C11", "title": "Index set algebra: common, unique, union, noncommon", "statement": "commonInds, uniqueInds, noncommonInds and unionInds of index sets return exactly the set intersection, difference, symmetric difference and union of their arguments (as sets of indices without repetition when the inputs have none), in the documented order; hasSameInds is set equality and does not depend on order.", "quantifier": "all index sets without repeated indices", "why_tests_cant": "unbounded sets", "anchors": ["itensor/indexset.cc:commonInds", "itensor/indexset.cc:uniqueInds", "itensor/indexset.cc:noncommonInds", "itensor/indexset.cc:unionInds", "itensor/indexset.cc:hasSameInds"]}
{"id": "C12", "title": "Tensor product contracts exactly the matching indices", "statement": "The result of A*B has each index that belongs to exactly one of A and B, once, and none of the indices shared by both; which dense positions are summed against which is determined by index identity only.", "quantifier": "all pairs of index sets with distinct indices each", "why_tests_cant": "unbounded orders", "anchors": ["itensor/indexset_impl.h:contractIS", "itensor/tensor/contract.cc:computeLabels"]}
{"id": "C13", "title": "replaceInds and swapInds substitute simultaneously", "statement": "replaceInds(T,is1,is2) replaces each index of T listed in is1 by the index at the same position of is2, all at once (so overlapping lists and cyclic permutations are right), and swapInds exchanges two lists; other indices and the order are unchanged.", "quantifier": "all index sets and replacement lists of distinct indices not carrying the reserved temporary prime level", "why_tests_cant": "aliasing between the lists is what goes wrong, over all lists", "anchors": ["itensor/itensor.cc:ITensor::replaceInds", "itensor/itensor.cc:ITensor::swapInds"]}
{"id": "C14", "title": "Dense element addressing is a bijection", "statement": "The column-major offset of a multi-index of a tensor with extents d1..dn lies in [0,d1*..*dn), distinct multi-indices have distinct offsets and every offset in range is hit.", "quantifier": "all extents and multi-indices", "why_tests_cant": "unbounded order and extents", "anchors": ["itensor/tensor/range.h:RangeT", "itensor/tensor/range.h:offset"]}
{"id": "C15", "title": "Range iteration and the generic counter visit every multi-index exactly once, in order", "statement": "Iterating a Range (range-for) or a GCounter with given extents yields every multi-index exactly once, in first-index-fastest order, and the reported offset is the offset of the reported multi-index also for non-contiguous strides; then it stops.", "quantifier": "all extents (positive) and strides", "why_tests_cant": "termination and completeness for every order", "anchors": ["itensor/tensor/rangeiter.h:RangeIter", "itensor/detail/gcounter.h:GCounter"]}
{"id": "C16", "title": "Permutations computed between index orders are correct and inverse() inverts", "statement": "calcPerm(is1,is2) maps the position of each index in is1 to its position in is2; inverse(P) composed with P is the identity both ways; isTrivial holds exactly for the identity.", "quantifier": "all permutations and index lists", "why_tests_cant": "n! permutations for all n", "anchors": ["itensor/tensor/permutation.h", "itensor/indexset.cc:calcPerm"]}
{"id": "C17", "title": "Permuting tensor data moves every element to the permuted position and touches each once", "statement": "Copying or adding a permuted view into a tensor applies the operation exactly once for each multi-index, pairing element i of the destination with the element of the source at the correspondingly permuted multi-index.", "quantifier": "all orders, extents, permutations", "why_tests_cant": "largest-extent inner-loop selection makes code paths depend on extents", "anchors": ["itensor/tensor/ten_impl.h:transform", "itensor/tensor/sliceten.h:permute"]}
{"id": "C18", "title": "Dense tensor contraction computes the mathematical contraction", "statement": "For dense A, B with labels, contract(A,B,C) stores into C for each multi-index of C the sum over all values of the shared labels of the products of matching elements, whatever order the labels come in and whether or not the code reduces to a matrix product with or without permuting A, B or C.", "quantifier": "all label orders, extents, element values of a commutative ring", "why_tests_cant": "the code selects between many permutation strategies", "anchors": ["itensor/tensor/contract.cc:contract", "itensor/tensor/contract.cc:CProps"]}
{"id": "C19", "title": "Accumulating contraction adds to the previous result", "statement": "contract(A,...,B,...,C,...,alpha,beta) sets C to alpha*(A*B)+beta*C_old.", "quantifier": "all label orders and contents", "why_tests_cant": "failure depends on the chosen strategy", "anchors": ["itensor/tensor/contract.cc:contract"]}
{"id": "C20", "title": "Complex matrix multiplication assembled from real ones is exact over a ring", "statement": "The complex gemm emulation by real matrix products on split real and imaginary parts gives alpha*op(A)*op(B)+beta*C in exact arithmetic, for real/complex mixes of A and B and transposed inputs and outputs.", "quantifier": "all matrices over a commutative ring", "why_tests_cant": "many storage combinations", "anchors": ["itensor/tensor/gemm.cc"]}
{"id": "C21", "title": "Block-sparse storage has sorted, disjoint, covering blocks", "statement": "Storage allocated for a tensor of given flux lists exactly the blocks whose sector QNs add up to that flux, each once, in increasing block order, with data regions that are disjoint and exactly fill the storage; inserting a block preserves this.", "quantifier": "all QN index sets and fluxes, all insertion sequences", "why_tests_cant": "unbounded block structures", "anchors": ["itensor/itdata/qdense.cc:getBlockOffsets", "itensor/itdata/qdense.cc:updateOffsets", "itensor/itdata/qdense.cc:insertBlock"]}
{"id": "C22", "title": "Block-sparse get/set behave as a map from multi-index to value", "statement": "After any sequence of set calls, elt at a multi-index returns the last value set there or zero; elements in absent blocks read as zero.", "quantifier": "all sequences of set/get", "why_tests_cant": "histories unbounded; involves binary search over the block table", "anchors": ["itensor/itdata/qdense.cc:doTask(SetElt)", "itensor/itdata/qdense.cc:doTask(GetElt)", "itensor/itdata/qdense.h:offsetOf", "itensor/detail/algs.h:binaryFind"]}
{"id": "C23", "title": "Addition of block-sparse tensors is element-wise addition", "statement": "A += B yields at every multi-index the sum of elements, also when the two have different sets of stored blocks or different index order.", "quantifier": "all tensors of equal flux", "why_tests_cant": "block sets differ", "anchors": ["itensor/itdata/qdense.cc:doTask(PlusEQ)"]}
{"id": "C24", "title": "Block-sparse contraction equals dense contraction", "statement": "Contracting two block-sparse tensors block by block gives the same element values as contracting their dense equivalents.", "quantifier": "all block structures", "why_tests_cant": "all block patterns", "anchors": ["itensor/itdata/qutil.h:loopContractedBlocks", "itensor/itdata/qdense.cc:doTask(Contract)"]}
{"id": "C25", "title": "The parallel block contraction does not depend on the thread schedule", "statement": "Any interleaving of the tasks in the OpenMP block contraction gives the same result as the sequential loop, because tasks on different result blocks write disjoint regions and those on one result block run in order.", "quantifier": "all schedules of all task sets", "why_tests_cant": "tests see few schedules", "anchors": ["itensor/itdata/qutil.h:loopContractedBlocks"]}
{"id": "C26", "title": "Combining indices and uncombining restores the tensor", "statement": "Multiplying by combiner(is...) then by dag of the same combiner gives a tensor with the original elements; combined value c corresponds to the tuple of original values in column-major order.", "quantifier": "all index sets, positions, extents", "why_tests_cant": "several code paths (contiguous or not)", "anchors": ["itensor/itdata/combiner.cc:combine", "itensor/itensor.cc:combiner"]}
{"id": "C27", "title": "QN combiner sectors tile the product space", "statement": "For a combiner of QN indices, the sub-blocks assigned to each output sector are disjoint, contiguous, cover the sector exactly, and have the QN of that sector; total dimension is the product.", "quantifier": "all QN indices", "why_tests_cant": "unbounded sector structures", "anchors": ["itensor/itensor.cc:combiner", "itensor/itdata/qcombiner.h"]}
{"id": "C28", "title": "Diagonal tensors act as their dense equivalents", "statement": "Converting a diagonal tensor to dense puts the stored value at equal positions and zero elsewhere, and contracting with it gives the same as contracting with the dense form.", "quantifier": "all orders and dims", "why_tests_cant": "rectangular diagonals", "anchors": ["itensor/itdata/diag.cc:ToDense", "itensor/tensor/contract.cc:contractDiagPartial", "itensor/itdata/diag.cc:doTask(Contract)"]}
{"id": "C29", "title": "Copies of a tensor are independent", "statement": "Modifying a tensor through one handle never changes the elements observed through any other copy, though copies share storage until first modification.", "quantifier": "all sequences of copy, assign, modify, replace and destroy on any number of handles", "why_tests_cant": "aliasing histories unbounded", "anchors": ["itensor/itdata/dotask.h:ManageStore", "itensor/itdata/itdata.h"]}
{"id": "C30", "title": "The small-buffer array behaves as a sequence", "statement": "push_back, resize, erase, swap, copy and move on the small-buffer array used for indices and options act as on an ordinary sequence.", "quantifier": "all operation sequences and sizes", "why_tests_cant": "boundary between inline and heap storage", "anchors": ["itensor/util/infarray.h:InfArray"]}
{"id": "C31", "title": "Args behaves as a map from option names to values", "statement": "After any sequence of add and remove calls, getX(name,default) returns the last value added or the default; copies agree.", "quantifier": "all sequences of operations", "why_tests_cant": "the failing state needs exactly eight options", "anchors": ["itensor/util/args.cc:Args", "itensor/util/args.h"]}
{"id": "C32", "title": "autovector behaves as a total map from integers to values", "statement": "Reading index i after any sequence of element writes returns the last value written at i or the default, for any (also negative) i, and mini/maxi bound the written range.", "quantifier": "all access sequences", "why_tests_cant": "growth in both directions", "anchors": ["itensor/util/autovector.h:autovector"]}
{"id": "C33", "title": "Binary streams: read after write restores the object", "statement": "For ints, bools, strings, vectors, nested containers, tag sets, QNs, indices, index sets and dense/block-sparse storage, read(write(x)) = x and leaves the rest of the stream in place.", "quantifier": "all values", "why_tests_cant": "all shapes and sizes; concatenation", "anchors": ["itensor/util/readwrite.h", "itensor/index.cc:read", "itensor/indexset.cc:read"]}
{"id": "C34", "title": "Truncation keeps a prefix within the requested bounds", "statement": "truncate on a non-increasing spectrum keeps a prefix of it, no more than maxdim values, no fewer than min(mindim, available), the discarded weight does not exceed the cutoff unless forced by maxdim, and one more discard would exceed the cutoff or go below mindim.", "quantifier": "all spectra over an ordered field, all parameter values", "why_tests_cant": "numerical ranges unbounded", "anchors": ["itensor/decomp.cc:truncate"]}
{"id": "C35", "title": "The reported truncation error is the discarded weight", "statement": "truncerr equals the sum of discarded eigenvalues divided by the total in relative mode and the sum itself in absolute mode.", "quantifier": "all spectra", "why_tests_cant": "rescaling interplay", "anchors": ["itensor/decomp.cc:truncate"]}
{"id": "C36", "title": "RespectDegenerate truncation never splits a multiplet and keeps at least one state", "statement": "With RespectDegenerate, states within the degeneracy tolerance are kept or discarded together, and at least min(mindim,n) states are kept.", "quantifier": "all spectra", "why_tests_cant": "degenerate spectra at the cut", "anchors": ["itensor/decomp.cc:truncate"]}
{"id": "C37", "title": "Block-wise truncation keeps exactly the states the global truncation selected", "statement": "Given the thresholds returned by the global truncation, selecting values block by block keeps, in total, exactly the number of states the truncation decided, each block keeping a prefix.", "quantifier": "all partitions of the spectrum into blocks", "why_tests_cant": "all block distributions", "anchors": ["itensor/svd.cc:svdImpl", "itensor/hermitian.cc"]}
{"id": "C38", "title": "Sweeps parameters: entries given apply to successive sweeps and the last repeats", "statement": "Assigning a comma list to maxdim/cutoff/etc. sets sweep 1,2,... to the entries in order and every later sweep to the last entry; values beyond nsweep are ignored.", "quantifier": "all list lengths and sweep counts", "why_tests_cant": "unbounded lengths", "anchors": ["itensor/mps/sweeps.h:SweepSetter", "itensor/mps/sweeps.h:Sweeps"]}
{"id": "C39", "title": "sweepnext visits every bond left to right then right to left", "statement": "for(b=1,ha=1; ha<=2; sweepnext(b,ha,N,{NumCenter,Minb})) visits minb..N+1-numCenter ascending and then descending exactly once each, then stops, for N large enough; for too small N it never stops.", "quantifier": "all N, NumCenter, Minb", "why_tests_cant": "termination for all N", "anchors": ["itensor/mps/sweeps.h:sweepnext"]}
{"id": "C40", "title": "MPS orthogonality limits are sound", "statement": "After any sequence of position, ref/set element access, svdBond, orthogonalize and scalar multiplication on an MPS, every site at or left of leftLim is left-orthogonal and every site at or right of rightLim is right-orthogonal; after position(i) exactly site i is the centre.", "quantifier": "all operation sequences and lengths", "why_tests_cant": "histories unbounded", "anchors": ["itensor/mps/mps.cc:MPS::position", "itensor/mps/mps.cc:MPS::ref", "itensor/mps/mps_impl.h:svdBond", "itensor/mps/mps.cc:orthogonalize"]}
{"id": "C41", "title": "An MPS kept on disk reads back the last values written", "statement": "With doWrite(true) the tensors read from the MPS are those last stored, for any access sequence; turning doWrite off keeps the current tensors.", "quantifier": "all access sequences", "why_tests_cant": "cache state histories unbounded", "anchors": ["itensor/mps/mps.cc:MPS::setBond", "itensor/mps/mps.cc:MPS::setSite", "itensor/mps/mps.cc:MPS::doWrite"]}
{"id": "C42", "title": "Summing a list of MPS adds every term exactly once", "statement": "sum(vector) with pairwise reduction returns the sum of all terms in any length.", "quantifier": "all list lengths", "why_tests_cant": "recursion structure depends on length", "anchors": ["itensor/mps/mps.cc:sum"]}
{"id": "C43", "title": "Adding two MPS (or MPO) represents the sum of the states", "statement": "The block-diagonal bond construction in addAssumeOrth produces tensors whose full contraction is the sum of the full contractions of the arguments.", "quantifier": "all lengths and bond dimensions", "why_tests_cant": "unbounded chain length", "anchors": ["itensor/mps/mpsalgs.cc:addAssumeOrth", "itensor/mps/mpsalgs.cc:plussers"]}
{"id": "C44", "title": "The projected Hamiltonian is always built from the current state", "statement": "Whenever position(b,psi) has been called and since the last call only sites inside the open window were changed, L() and R() equal the full left and right environments of the current psi; in a DMRG run this holds at every step.", "quantifier": "all sequences of positions and in-window modifications", "why_tests_cant": "cache invalidation histories unbounded", "anchors": ["itensor/mps/localmpo.h:LocalMPO::position", "itensor/mps/localmpo.h:makeL", "itensor/mps/localmpo.h:makeR", "itensor/mps/dmrg.h:DMRGWorker"]}
{"id": "C45", "title": "Writing projected-Hamiltonian environments to disk does not change results", "statement": "With doWrite(true) the left and right environments seen after position(b,psi) are the same as without.", "quantifier": "all position sequences", "why_tests_cant": "jump patterns", "anchors": ["itensor/mps/localmpo.h:setLHlim", "itensor/mps/localmpo.h:setRHlim"]}
{"id": "C46", "title": "shift moves the projected region by one site in either direction", "statement": "shift(j,dir,A) extends the environment by site j from either side.", "quantifier": "all states", "why_tests_cant": "rarely used direction", "anchors": ["itensor/mps/localmpo.h:LocalMPO::shift"]}
{"id": "C47", "title": "A set of Hamiltonians acts as their sum", "statement": "product, diag, deltaRho and expect of a LocalMPOSet equal the sums of those of the members.", "quantifier": "all numbers of members", "why_tests_cant": "any count", "anchors": ["itensor/mps/localmposet.h:LocalMPOSet::expect"]}
{"id": "C48", "title": "AutoMPO term entry respects fermionic signs", "statement": "Entering operators in any order gives a term that equals the product in entry order: the stored site-ordered product times the accumulated sign.", "quantifier": "all operator strings", "why_tests_cant": "all orders and parities", "anchors": ["itensor/mps/autompo.cc:HTerm::add"]}
{"id": "C49", "title": "AutoMPO accumulates the sum of its terms", "statement": "After any sequence of +=, the operator represented by the stored terms is the sum of the entered terms: equal strings merge coefficients, nothing else is lost.", "quantifier": "all sequences of terms", "why_tests_cant": "any collision pattern", "anchors": ["itensor/mps/autompo.cc:AutoMPO::add", "itensor/mps/autompo.h:LessNoCoef"]}
{"id": "C50", "title": "The exact MPO of one- and two-operator terms represents the sum of the terms", "statement": "toMPO(ampo,{\"Exact=\",true}) yields a matrix-product operator equal to the sum of the entered terms.", "quantifier": "all chains, all sets of terms", "why_tests_cant": "unbounded N and interaction range", "anchors": ["itensor/mps/autompo.cc:toMPOImpl"]}
{"id": "C51", "title": "Jordan-Wigner strings give fermionic operators their signs", "statement": "The local operators placed on each site reproduce the product of anticommuting operators for every even-parity term.", "quantifier": "all terms, all chain lengths", "why_tests_cant": "unbounded strings", "anchors": ["itensor/mps/autompo.cc:rewriteFermionic", "itensor/mps/autompo.cc:startTerm", "itensor/mps/autompo.cc:endTerm"]}
{"id": "C52", "title": "A BondGate from a Hamiltonian is the Taylor polynomial of the exponential", "statement": "BondGate(sites,i,j,tImag,tau,H) equals sum over k<=100 of (-tau H)^k/k!, and (-i tau H) for tReal.", "quantifier": "all H in an algebra over the rationals", "why_tests_cant": "all operators", "anchors": ["itensor/mps/bondgate.h:BondGate"]}
{"id": "C53", "title": "Lattice generators list each bond exactly once", "statement": "squareLattice and triangularLattice return exactly the nearest-neighbour bonds of the Nx by Ny lattice with the requested boundary condition, each once, and the internal count check never fails.", "quantifier": "all Nx, Ny", "why_tests_cant": "unbounded sizes", "anchors": ["itensor/mps/lattice/square.h", "itensor/mps/lattice/triangular.h"]}
{"id": "C54", "title": "Periodic wrapping lands in range and preserves residue", "statement": "periodicWrap(j,N) is in 1..N and congruent to j modulo N.", "quantifier": "all j, N>0", "why_tests_cant": "all integers", "anchors": ["itensor/mps/mps.cc:periodicWrap"]}
{"id": "C55", "title": "Operator products by name multiply in the written order", "statement": "op(sites,\"A*B*C\",i) is the operator product A then B then C in the documented order for any number of factors.", "quantifier": "all product strings", "why_tests_cant": "unbounded length", "anchors": ["itensor/mps/siteset.h:SiteSet::op", "itensor/mps/siteset.h:multSiteOps"]}
{"id": "C56", "title": "Inner products equal the full sum", "statement": "inner(psi,phi) and inner(psi,H,phi) computed by the sweeping contraction equal the full sum over all site and link values.", "quantifier": "all lengths and dimensions", "why_tests_cant": "unbounded chain length", "anchors": ["itensor/mps/mps.cc:inner", "itensor/mps/mpo.cc:inner"]}
{"id": "C57", "title": "isContiguous answers exactly for slices and permutations of column-major ranges", "statement": "isContiguous(R) is true exactly when the addresses of all multi-indices of R form the set {0,...,dim-1}, for every range that arises from a column-major range by slicing and permuting.", "quantifier": "all extents, boxes and permutations", "why_tests_cant": "the code only compares the largest address with the dimension; that this suffices is an argument about all ranges", "anchors": ["itensor/tensor/range.h:isContiguous"]}
{"id": "C58", "title": "Tensor slices address the right elements", "statement": "Element j of subTensor(T,start,stop) is element start+j of T; subIndex shifts one index; groupInds merges adjacent indices so that the grouped view at the merged position reads the element of T at the original multi-index.", "quantifier": "all ranges, boxes, groups and multi-indices", "why_tests_cant": "pointer-plus-stride arithmetic for all orders", "anchors": ["itensor/tensor/sliceten.h:subTensor", "itensor/tensor/sliceten.h:subIndex", "itensor/tensor/slicerange.h:groupIndsRange"]}
{"id": "C59", "title": "removeQNs keeps every element", "statement": "removeQNs(T) is a dense tensor with the same indices without quantum numbers; its element at any position is the element of T there, zero where T has no block.", "quantifier": "all QN tensors", "why_tests_cant": "all block structures", "anchors": ["itensor/itensor.cc:removeQNs", "itensor/itdata/qdense.cc:doTask(RemoveQNs)"]}
{"id": "C60", "title": "The product of two ITensors sums over the common indices", "statement": "A*B has the indices that occur on exactly one of A, B, those of A first; each element is the sum over all values of the common indices of the products of the elements, whatever the order of the indices on A and B; scalars multiply.", "quantifier": "all dense tensors whose sizes are representable", "why_tests_cant": "all ranks, index orders and dimensions; several code paths (scalar, matrix multiplication, permutation)", "anchors": ["itensor/itensor.cc:ITensor::operator*=", "itensor/indexset.h:contractIS", "itensor/itdata/dense.cc:doTask(Contract)", "itensor/tensor/contract.cc:contract"]}
{"id": "C61", "title": "The order of contraction of a network does not matter", "statement": "When every index occurs on at most two tensors of a product, the value of the product does not depend on the order and the bracketing of the multiplications.", "quantifier": "all networks", "why_tests_cant": "all binary trees over all lists of tensors", "anchors": ["itensor/itensor.cc:ITensor::operator*="]}
{"id": "C62", "title": "The bookkeeping of a DMRG calculation never fails and always uses the current state", "statement": "A DMRG calculation on at least two sites, with any number of sweeps and writing to disk turned on in any sweep, visits the bonds 1..N-1 and back in each sweep, gives the eigensolver at every bond the environments of the state as it is then, never fails a check of svdBond or normalize, and ends with the orthogonality centre at site 1.", "quantifier": "all lengths, sweep counts, factorization results and choices of when to write to disk", "why_tests_cant": "histories unbounded", "anchors": ["itensor/mps/dmrg.h:DMRGWorker", "itensor/mps/sweeps.h:sweepnext", "itensor/mps/mps_impl.h:svdBond", "itensor/mps/localmpo.h:LocalMPO::position"]}
{"id": "C63", "title": "Moving the orthogonality centre keeps the state", "statement": "position(i), with either kind of factorization, keeps every amplitude of the state when the factorizations do not truncate.", "quantifier": "all states, sites and call histories", "why_tests_cant": "unbounded chain length", "anchors": ["itensor/mps/mps.cc:MPS::position", "itensor/mps/mps.cc:orthMPS"]}
{"id": "C64", "title": "Adding ITensors adds elements whatever the order of the indices", "statement": "L += R and L -= R for tensors with the same indices in any orders give a tensor with the indices of L in their order whose elements are the sums or differences of the elements for the same index values, also when L and R are one object; different indices are an error and never added.", "quantifier": "all tensors, index orders, dimensions", "why_tests_cant": "all permutations and ranks; two code paths", "anchors": ["itensor/itensor.cc:daxpy", "itensor/itensor.cc:ITensor::operator+=", "itensor/itdata/dense.cc:add", "itensor/itdata/diag.cc:add"]}
{"id": "C65", "title": "The default conversion of an AutoMPO keeps the operator", "statement": "toMPO without options gives a matrix product operator equal to the sum of the entered terms, for terms with any number of operators on any sites in any order of entry, with fermionic signs, when the singular values which are dropped are zero.", "quantifier": "all chains, terms, quantum numbers and singular value decompositions", "why_tests_cant": "unbounded numbers of terms, operators and sites; any decomposition of every block", "anchors": ["itensor/mps/autompo.cc:partitionHTerms", "itensor/mps/autompo.cc:compressMPO", "itensor/mps/autompo.cc:constructMPOTensors", "itensor/mps/autompo.cc:svdMPO"]}
{"id": "C66", "title": "Element-wise operations on diagonal tensors act on the elements", "statement": "Multiplying by a real or complex number, conj, realPart, imagPart, apply and fill, in any sequence, on tensors with diagonal storage, with or without quantum numbers, stored elements or a single value, act on every diagonal element as the same operation on numbers, the other elements stay zero; norm and sumels are those of the elements.", "quantifier": "all diagonal storages and sequences of operations", "why_tests_cant": "four storage forms, changes of the number type on the way, unbounded sequences", "anchors": ["itensor/itdata/diag.cc:doTask(Mult)", "itensor/itdata/diag.h:doTask(ApplyIT)", "itensor/itdata/qdiag.cc:doTask(Mult)", "itensor/itdata/qdiag.h:doTask(ApplyIT)", "itensor/itdata/qdiag.h:doTask(GenerateIT)"]}
{"id": "C67", "title": "toDense of a diagonal QN tensor keeps every element", "statement": "toDense(T) for a diagonal tensor with quantum numbers gives block-sparse storage with the blocks of its divergence and the same element at every position.", "quantifier": "all diagonal tensors with quantum numbers", "why_tests_cant": "all block structures and ranks", "anchors": ["itensor/itensor.cc:toDense", "itensor/itdata/qdiag.cc:doTask(ToDense)", "itensor/itdata/qdiag.h:getBlock"]}
{"id": "C68", "title": "The block-sparse singular value decomposition is one of the whole matrix", "statement": "svdOrd2 of a matrix with quantum numbers gives U, D, V with A=U*D*V without truncation; columns of U and of V are orthonormal, D is diagonal and not negative, U and V have zero flux and D that of A; with truncation the squared distance is the sum of the squares of the values left out and as many values are kept as truncate says.", "quantifier": "all matrices with quantum numbers, all block structures and decompositions of the blocks", "why_tests_cant": "the assembly of any number of blocks, transposed or not, after a truncation over all blocks", "anchors": ["itensor/svd.cc:svdImpl", "itensor/decomp.cc:doTask(GetBlocks)", "itensor/svd.cc:svdOrd2"]}
{"id": "C69", "title": "The Davidson eigensolver returns normalized vectors with their energies and never raises the energy", "statement": "For a Hermitian matrix davidson returns normalized vectors; each value returned is the energy of its vector. The first value is not above the energy of the initial vector, is the minimum over the vectors searched, and is below the initial energy unless the initial vector is an eigenvector or no iteration is allowed. As many values as initial vectors are returned.", "quantifier": "all Hermitian matrices, initial vectors, options, random vectors and diagonalizations of the small matrices", "why_tests_cant": "any dimension, any number of iterations, orthogonalization failures with random restarts", "anchors": ["itensor/iterativesolvers.h:davidson"]}
{"id": "C70", "title": "GMRES solves linear equations", "statement": "gmres ends and returns a vector whose residual is not larger than that of the initial guess; with as many iterations as dimensions, and no restart before, the residual is below the tolerance asked for; otherwise it is below it or the smallest possible in the Krylov space searched.", "quantifier": "all invertible matrices, right-hand sides, initial guesses, tolerances, numbers of iterations and restarts", "why_tests_cant": "any dimension and history; the residual is never computed within a round, only estimated through the plane rotations", "anchors": ["itensor/iterativesolvers.h:gmresImpl", "itensor/iterativesolvers.h:gmres", "itensor/iterativesolvers.h:generatePlaneRotation"]}
{"id": "C71", "title": "The exponential of a matrix is accurate", "statement": "expMatrix(M,t,ideg) returns the exponential of t*M up to a relative error bounded by the truncation error of the Pade approximant, which for the default degree is of the order of the precision of a double times the norm of t*M.", "quantifier": "all square real and complex matrices of all sizes, all real and complex t, all degrees", "why_tests_cant": "all matrices, sizes and norms; the number of squarings depends on the norm", "anchors": ["itensor/tensor/algs.cc:expPade", "itensor/tensor/algs_impl.h:expMatrix"]}
{"id": "C72", "title": "applyExp multiplies by the exponential", "statement": "applyExp(H,phi,tau) for Hermitian H replaces phi by exp(tau*H)*phi up to the tolerance asked for; for imaginary tau the norm is kept; the error decreases faster than exponentially with the number of Lanczos iterations.", "quantifier": "all Hermitian H in any dimension, all vectors, all real and complex tau, all options", "why_tests_cant": "any dimension, any number of iterations; the error is never computed, only estimated, by the code", "anchors": ["itensor/iterativesolvers.h:applyExp", "itensor/iterativesolvers.h:assembleLanczosVectors"]}
{"id": "C73", "title": "DMRG is variational and without truncation never raises the energy", "statement": "dmrg(psi,H,sweeps) for Hermitian H ends without error; the energy found at every bond is the expectation value of H in some normalized state, so not below the lowest eigenvalue, and not above the energy of the state at that time; when nothing is truncated the energies found never increase, from the energy of the initial state on, and the energy returned is that of the final state, which is normalized.", "quantifier": "all Hermitian MPOs, initial states with at least two sites, numbers of sweeps, truncations, options of the eigensolver and choices of when to write to disk", "why_tests_cant": "any length, bond dimension and number of sweeps; the energy is never computed from the whole state, only from environments kept from earlier steps, which is right only if they and the gauge are", "anchors": ["itensor/mps/dmrg.h:DMRGWorker", "itensor/mps/localmpo.h:LocalMPO::makeL", "itensor/mps/localop.h:LocalOp::product", "itensor/iterativesolvers.h:davidson"]}
{"id": "C74", "title": "gateTEvol applies the gates", "statement": "gateTEvol(gates,ttotal,tstep,psi) with gates on neighbouring sites applies the gates in the order of the list, ttotal/tstep times, keeping a valid orthogonality centre throughout; without truncation the final state is exactly the evolved one, by default normalized, and the number returned is the norm of the evolved state.", "quantifier": "all chains, gates, lists of gates, numbers of steps and gauges of the initial state", "why_tests_cant": "any number of gates and steps; the truncations and norms rely on the centre being where it is assumed after each gate", "anchors": ["itensor/mps/tevol.h:gateTEvol", "itensor/mps/mps_impl.h:svdBond", "itensor/mps/mps.cc:MPS::normalize"]}
{"id": "C75", "title": "applyMPO gives the product of operator and state", "statement": "applyMPO(K,psi) with the default method returns an MPS in right orthogonal gauge with the centre at site 1 and links not above MaxDim; without truncation it is exactly K*psi; with a Cutoff the squared distance to K*psi is at most (N-1)*Cutoff times the squared norm of K*psi; with a MaxDim it is at most N-1 times that of any MPS with links within MaxDim; with Normalize the result has norm 1.", "quantifier": "all operators and states of any length, link and site dimensions, all cutoffs, MaxDim and diagonalizations of the density matrices", "why_tests_cant": "K*psi itself has exponentially many components and is never formed; the errors of all truncations must be added up through the environments and projections", "anchors": ["itensor/mps/mpoalgs.cc:densityMatrixApplyMPOImpl", "itensor/mps/mpoalgs.cc:applyMPO", "itensor/decomp.cc:diagPosSemiDef", "itensor/decomp.cc:truncate"]}
{"id": "C76", "title": "orthogonalize keeps the state within the cutoff and MaxDim", "statement": "psi.orthogonalize(args) brings an MPS of any gauge into right orthogonal gauge with the centre at site 1; with cutoff zero the state is unchanged; with a Cutoff the squared distance is at most (N-1)*Cutoff times the squared norm; with a MaxDim the links are within it and the squared distance is at most N-1 times that of any MPS with such links.", "quantifier": "all states of any length and dimensions, all cutoffs, MaxDim and diagonalizations of the density matrices", "why_tests_cant": "the state has exponentially many components; the errors of all truncations must be added up through the environments and projections", "anchors": ["itensor/mps/mps.cc:MPS::orthogonalize", "itensor/decomp.cc:diagPosSemiDef", "itensor/decomp.cc:truncate"]}
{"id": "C77", "title": "The Arnoldi eigensolver returns eigenpairs", "statement": "arnoldi(A,phi) returns as many pairs as starting vectors; each vector is normalized, each value is the extreme one asked for (WhichEig) among the Ritz values of the space searched, and with as many iterations as dimensions the pairs satisfy the eigenvalue equation of A up to ErrGoal.", "quantifier": "all linear operators in any dimension, starting vectors, options, random vectors and diagonalizations of the small matrices", "why_tests_cant": "any dimension, iterations and restarts; the error is never computed, only estimated from the small matrix", "anchors": ["itensor/iterativesolvers.h:arnoldi", "itensor/iterativesolvers.h:findEig"]}
{"id": "C78", "title": "Hermitian tensors with quantum numbers are diagonalized and exponentiated", "statement": "diagHermitian of a matrix with quantum numbers returns U and D with H = dag(U) D prime(U), U unitary, D diagonal with the eigenvalues, both of zero flux; diagPosSemiDef with truncation returns orthonormal eigenvectors, as many as truncate keeps, of the largest eigenvalues; expHermitian(H,t) is the exponential of t*H.", "quantifier": "all Hermitian matrices with quantum numbers of zero flux, all sectors and sizes, all t, all truncations and diagonalizations of the blocks", "why_tests_cant": "any number and size of sectors; the blocks are treated one at a time and the spectrum is cut across all of them", "anchors": ["itensor/hermitian.cc:diagHImpl", "itensor/decomp.cc:diagHermitian", "itensor/decomp.cc:expHermitian", "itensor/decomp.h:GetBlocks"]}
{"id": "C79", "title": "The truncated sum of states is the sum within the cutoff", "statement": "sum(terms,args) of any number of MPS gives an MPS in right orthogonal gauge with the centre at site 1; with Cutoff zero it is exactly the sum; with a Cutoff the distance to the sum is bounded by the cutoff, the length of the chain and the logarithm of the number of terms times the norms of the terms; with a MaxDim the links are within it and for two terms the squared distance is at most N-1 times that of any MPS with such links.", "quantifier": "all numbers of terms, lengths, dimensions, gauges of the terms, cutoffs, MaxDim and diagonalizations of the density matrices", "why_tests_cant": "the states have exponentially many components; the errors add up over the sites and over the tree of sums", "anchors": ["itensor/mps/mps.cc:MPS::plusEq", "itensor/mps/mps.cc:sum", "itensor/mps/mpsalgs.cc:addAssumeOrth", "itensor/mps/mps.cc:MPS::orthogonalize"]}
{"id": "C80", "title": "The operators of every site type satisfy their algebra", "statement": "For every site type, size (2S of CustomSpin, MaxOcc of Boson) and choice of conserved numbers, the named operators exist and obey the relations of their physics: spin commutators and S(S+1), Sx=(S+ + S-)/2, boson relations below the cut-off, on-site anticommutation of fermions, F as the parity, clock algebra; the conserved numbers of the states agree with the diagonal operators, named states are the states of that value, and every operator returned with quantum numbers has a definite flux.", "quantifier": "all spins, all cut-offs, all site types, names and conservation arguments", "why_tests_cant": "unbounded family of sizes; the tables are written element by element and a wrong element is seen only through the relations", "anchors": ["itensor/mps/sites/customspin.h:CustomSpinSite::op", "itensor/mps/sites/boson.h:BosonSite::op", "itensor/mps/sites/spinhalf.h:SpinHalfSite::op", "itensor/mps/sites/spinone.h:SpinOneSite::op", "itensor/mps/sites/spintwo.h:SpinTwoSite::op", "itensor/mps/sites/electron.h:ElectronSite::op", "itensor/mps/sites/tj.h:tJSite::op", "itensor/mps/sites/Z3.h:Z3Site::op", "itensor/itensor_impl.h:checkEltFluxInts"]}
{"id": "C81", "title": "toExpH approximates the exponential of the sum of terms", "statement": "toExpH(ampo,tau) is the sum over all sets of terms no two of which share a site, of the product of the terms times (-tau) to the power of their number; hence it agrees with exp(-tau*H) to first order in tau, and the product of toExpH for (1+i)/2*tau and (1-i)/2*tau agrees with it to second order.", "quantifier": "all chains, site dimensions, sets of one- and two-operator terms of any range, complex tau", "why_tests_cant": "the number of sets grows exponentially; the order of an error is a statement about all small tau", "anchors": ["itensor/mps/autompo.cc:toExpH_ZW1", "itensor/mps/autompo.cc:toExpH"]}
{"id": "C82", "title": "A tensor with quantum numbers has one flux", "statement": "Whatever sequence of constructions, set, copies, +=, -=, *=, multiples and dag has been executed, all elements of a tensor with quantum numbers which are not zero have the same flux, that is div(T). set throws exactly for an element of another flux and otherwise writes it; L+=R throws exactly when the fluxes or the arrows of an index differ; the flux of a product is the sum, that of dag(T) the negative.", "quantifier": "all indices and sectors, all programs of such statements, with any number of tensors", "why_tests_cant": "unbounded sequences; the check only looks at the first block, which suffices only if the invariant holds for every operation", "anchors": ["itensor/itensor_impl.h:checkEltFluxInts", "itensor/itensor_impl.h:ITensor::set", "itensor/itensor.cc:allocReal", "itensor/itensor.cc:checkSameDiv", "itensor/itensor.cc:checkArrows", "itensor/itensor.cc:daxpy", "itensor/itensor.cc:ITensor::operator*=", "itensor/itdata/qdense.cc:doTask(CalcDiv)"]}
{"id": "C83", "title": "An input file gives back what is written in it", "statement": "For a file of lines `key = value` and nested groups `name { ... }`, with any spacing and any other lines, getInt, getString and getYesNo of an InputGroup return the value written after the key in that group, at any depth; if the group has no such item, or the file no such group, the default is returned and the mandatory form throws; every call ends.", "quantifier": "all files, groups, keys, values, spacings and depths of nesting", "why_tests_cant": "unbounded set of texts; the reader works character by character and a wrong step shows only for particular layouts", "anchors": ["itensor/util/input.cc:InputGroup::GotoGroup", "itensor/util/input.cc:InputGroup::GotoToken", "itensor/util/input.cc:gettoken", "itensor/util/input.cc:matchbracket", "itensor/util/input.cc:InputGroup::GetInt"]}
{"id": "C84", "title": "A table of sweeps is read row by row and its last row repeated", "statement": "Sweeps(nsweep,table) gives sweep i the parameters of row i of the table in the input file, and those of the last row if the table has fewer rows than there are sweeps.", "quantifier": "all files, tables, numbers of rows and of sweeps, numbers and spacings", "why_tests_cant": "unbounded numbers of rows and sweeps; the end of the table is noticed only through a number that cannot be read", "anchors": ["itensor/mps/sweeps.h:Sweeps::tableInit", "itensor/util/input.cc:InputGroup::SkipLine", "itensor/util/input.cc:InputGroup::GotoGroup"]}
{"id": "C85", "title": "applyMPO by fitting comes closer to the product at every step", "statement": "applyMPO(K,x,x0,{Method=,Fit}) ends without error from any initial state of the same length; after the step at each bond the distance of the state from K*x is the smallest that can be reached by changing the two tensors at that bond, up to what is truncated; without truncation the distance never increases, from that of x0 on, and its square is the square of the norm of K*x minus that of the result; the centre of the result is at site 1; with enough sweeps K*x is found if an MPS of the allowed dimension represents it.", "quantifier": "all operators, states and initial states of any length and dimensions, factors, numbers of sweeps and truncations", "why_tests_cant": "K*x has exponentially many components and is never formed; each step is right only if the environments kept from earlier steps and the gauge are", "anchors": ["itensor/mps/mpoalgs.cc:fitApplyMPOImpl", "itensor/mps/mpoalgs.cc:twoSiteFitApply", "itensor/mps/mps_impl.h:svdBond", "itensor/mps/sweeps.h:sweepnext"]}
{"id": "C86", "title": "Fitting with one site in the centre never loses accuracy and never enlarges links", "statement": "applyMPO(K,x,x0,{Method=,Fit,NCenterSites=,1}) ends without error from any initial state of the same length, one site included; the tensor it computes at each site is the best possible one for that site, given the others; without truncation the distance from K*x never increases, and no link becomes larger than that of x0; for a single site the result is K*x; with enough sweeps K*x is found.", "quantifier": "all operators, states and initial states of any length and dimensions, factors, numbers of sweeps and truncations", "why_tests_cant": "during a sweep the tensors of the state do not fit together, so no intermediate state can be inspected; that nothing is lost between two sites is a statement about a state which is never stored", "anchors": ["itensor/mps/mpoalgs.cc:oneSiteFitApply", "itensor/mps/mpoalgs.cc:fitApplyMPOImpl", "itensor/mps/sweeps.h:sweepnext1"]}
{"id": "C87", "title": "Runge-Kutta steps follow the exponential of the derivative", "statement": "For a derivative D that is linear in the tensors, n calls of rungeKutta4(D,t,v) give exp(n t D) applied to the tensors of v with an error of at most n (|t| |D|)^5/120 exp(n |t| |D|) of their norm, and n calls of midpointMethod with (|t| |D|)^3/6 in its place; for derivatives that are not linear the error of a step is also of the fifth order; element 0 and empty elements at the end are kept; a vector with fewer than two elements is refused.", "quantifier": "all numbers of tensors, vector spaces, derivatives, steps and numbers of steps", "why_tests_cant": "the order of an error is a statement about all small steps; a wrong weight only lowers the order", "anchors": ["itensor/mps/integrators.h:rungeKutta4", "itensor/mps/integrators.h:midpointMethod"]}
{"id": "C88", "title": "A DMRG calculation stops when its goals are met and reports what happened", "statement": "dmrg with EnergyErrgoal or EntropyErrgoal makes sweeps until the energy or the entropy at the middle bond changes by less than the goal from one sweep to the next (if both are given, until one of them does), or a file STOP_DMRG or STOP_DMRG_ALL is found, which is then removed, or all sweeps are made; it returns the energy of the last optimization; the largest bond dimension and truncation error reported after a sweep are those of all its bonds, the entropy is that of the normalized spectrum and lies between zero and the logarithm of its size; an observer can be used for further calculations, all of which stop after one sweep once STOP_DMRG_ALL was found.", "quantifier": "all lengths, numbers of sweeps, energies, spectra, goals, times at which files appear and earlier uses of the observer", "why_tests_cant": "depends on the whole history of energies; the observer keeps state between sweeps and calculations, and each test sees one history", "anchors": ["itensor/mps/DMRGObserver.h:DMRGObserver::checkDone", "itensor/mps/DMRGObserver.h:DMRGObserver::measure", "itensor/mps/dmrg.h:DMRGWorker"]}
{"id": "C89", "title": "Arithmetic on views of vectors and matrices changes exactly the elements viewed", "statement": "Every view made of a matrix by transpose, subMatrix, rows, columns, row, column and diagonal, and of a vector by subVector, shows the elements its name says, each once; &=, +=, -= (operands of the same shape that share elements at most at equal positions), *= and /= on views change each element viewed as they say and nothing else, whatever the strides; dot products and matrix-vector products from either side, into a view or a new vector, are those of the elements viewed.", "quantifier": "all matrices, vectors, sizes and chains of views", "why_tests_cant": "all strides, offsets and nestings of views; separate code paths for contiguous, transposed and other views", "anchors": ["itensor/tensor/vec.cc:operator+=", "itensor/tensor/mat.cc:add", "itensor/tensor/mat.cc:call_gemv", "itensor/tensor/mat.cc:mult", "itensor/tensor/matrange.h:MatRangeIter", "itensor/tensor/slicemat.h:subMatrix", "itensor/tensor/vec.h:subVector"]}
{"id": "C90", "title": "DMRG for sums of operators and for excited states minimizes what it says", "statement": "dmrg(psi,Hset,sweeps) and dmrg(psi,H,psis,sweeps,{Weight=,w}) end without error; the energy found at each bond is the expectation value of the sum of the operators of Hset, or of H + w*(|0><0| + |1><1| + ...), in a state of norm 1, and not above that of the state at the time, so never below the lowest eigenvalue; without truncation the energies never increase and the one returned is that of the final state; for positive w the final state is orthogonal to psis up to (energy - lowest eigenvalue of H)/w, and with enough sweeps it is orthogonal and the energy returned is its expectation value of H.", "quantifier": "all numbers of operators and states, lengths, dimensions, weights, gauges and norms of psis, numbers of sweeps and truncations, any use of the disk", "why_tests_cant": "the sum is never formed; every member has its own environments, which must stay in step with the state for any history of sweeps", "anchors": ["itensor/mps/localmposet.h:LocalMPOSet::product", "itensor/mps/localmpo_mps.h:LocalMPO_MPS::product", "itensor/mps/localmpo.h:LocalMPO::product", "itensor/mps/dmrg.h:dmrg"]}
{"id": "C91", "title": "correlationMatrix gives the correlation functions", "statement": "correlationMatrix(psi,sites,op1,op2,range) returns for every two sites i and j of the range the expectation value <op1_i op2_j>, divided by the norm of the state, with the Jordan-Wigner strings and signs of fermionic operators in every order of i and j; an empty range stands for all sites; a state without an orthogonality centre is orthogonalized first; operators of which only one is fermionic are refused; when the matrix is taken to be Hermitian, because the operators are conjugates or have the same name, the lower half is still right.", "quantifier": "all lengths, bond dimensions, states, real or complex, site dimensions, operators and ranges", "why_tests_cant": "a nest of loops over environments which share work between elements; signs depend on the order of the sites and on the number of sites between", "anchors": ["itensor/mps/mps.cc:correlationMatrixT", "itensor/mps/mps.cc:fixRange", "itensor/mps/mps.h:correlationMatrix"]}
{"id": "C92", "title": "expect gives the expectation values", "statement": "expect(psi,sites,ops,list) returns for every site of the list, in any order and with repetitions, and every operator the expectation value of the operator in the state divided by its norm, whatever the norm, and the same for a range of sites, of which an empty one stands for all sites.", "quantifier": "all lengths, bond dimensions, states, site dimensions, lists of operators and of sites", "why_tests_cant": "the state is moved through all gauges in the order of the list", "anchors": ["itensor/mps/mps.h:expectT"]}
{"id": "C93", "title": "SVD and QR of a matrix are decompositions of it", "statement": "SVD(M,U,D,V) returns U and V with orthonormal columns and min(m,n) values in D, not negative and in descending order, so that M is U times D times the adjoint of V, for matrices of either shape, of any rank and real or complex, whatever the method and the threshold; the values do not depend on method and threshold; the built-in method, which calls itself for the small values, comes to an end. QR(A,Q,R) returns Q with orthonormal columns and an upper triangular R with A=QR, with as many columns as asked for, and with a diagonal that is not negative if asked for. randomOrthog gives orthonormal columns or rows whatever the random numbers.", "quantifier": "all shapes, ranks, matrices and thresholds", "why_tests_cant": "the recursion depends on the spectrum; that a triangular factor is diagonal holds because of the order of the eigenvalues", "anchors": ["itensor/tensor/algs_impl.h:SVDRefImpl", "itensor/tensor/algs.cc:checkSVDDone", "itensor/tensor/algs_impl.h:SVD", "itensor/tensor/algs_impl.h:QR", "itensor/tensor/algs_impl.h:diagHermitian", "itensor/tensor/mat.h:randomOrthog"]}
{"id": "C94", "title": "Decompositions are of the matrix a view shows", "statement": "diagHermitian, QR, SVD by LAPACK and the decomposition of a general matrix, given any view of a matrix (contiguous, transposed, or a piece of a larger one), decompose the matrix the view shows: memory is handed to LAPACK in the order LAPACK expects, and what comes back is put in the right places, also when the first LAPACK routine fails and a second one is tried.", "quantifier": "all views inside their memory, all sizes, all numbers, all LAPACK implementations that keep the documented promises", "why_tests_cant": "the order of elements in memory matters only for shapes and strides that tests do not cover; the fallback needs a failing LAPACK", "anchors": ["itensor/tensor/algs_impl.h:SVDRefLAPACK", "itensor/tensor/algs_impl.h:QR", "itensor/tensor/algs.cc:detail::QR", "itensor/tensor/algs_impl.h:diagHermitian", "itensor/tensor/algs.cc:diagGeneralRef", "itensor/tensor/algs.cc:Unpack"]}
{"id": "C95", "title": "The QR decomposition of a tensor with quantum numbers is a QR decomposition", "statement": "qr(A,inds) of a tensor with quantum numbers returns Q and R with A=Q*R, Q with orthonormal columns, unitary if Complete is set, and R upper triangular as a whole if UpperTriangular is set (the default), for every order of the sectors of the two indices.", "quantifier": "all numbers, sizes and orders of sectors, directions, fluxes, sets of blocks and elements, all decompositions of the single blocks", "why_tests_cant": "the blocks are sorted, and the wrong direction of a permutation shows only for permutations that differ from their inverse", "anchors": ["itensor/decomp.cc:qrImpl", "itensor/decomp.cc:qrOrd2"]}
{"id": "C96", "title": "svdBond factorizes within the cutoff, with either method and with noise", "statement": "svdBond(b,AA,dir,PH,args) replaces two tensors by a left (or right) orthogonal tensor and a centre whose product is an orthogonal projection of AA, with a link of at most MaxDim states; what is discarded is at most Cutoff times the squared norm of AA together with that of the noise; without noise no pair of tensors with a link of dimension MaxDim is better, up to the cutoff; without truncation the product is AA; with DoNormalize it has norm 1. This holds for the singular value decomposition and for the density matrix.", "quantifier": "all tensors, dimensions, directions, projected operators, noise strengths and options, all correct diagonalizations and singular value decompositions", "why_tests_cant": "the noise changes which states are kept, not the centre; the bound concerns all tensors and all competing factorizations", "anchors": ["itensor/mps/mps_impl.h:MPS::svdBond", "itensor/decomp.h:denmatDecomp", "itensor/mps/localop.h:LocalOp::deltaRho", "itensor/hermitian.cc:diag_hermitian", "itensor/svd.cc:svdOrd2"]}
{"id": "C97", "title": "nmultMPO returns the product of two operators up to its cutoffs", "statement": "nmultMPO(A,B) of two operators returns an operator with orthogonality centre at site 1 which is not longer than the product of A and B; without truncation it is the product up to what orthogonalize discards; with a cutoff the relative distance to the product is bounded by the cutoff.", "quantifier": "all operators with any gauge, lengths, dimensions, options, gauge choices and right decompositions", "why_tests_cant": "any number of sites, all contents of the tensors, accumulated truncations of intermediate products that are not orthogonal", "anchors": ["itensor/mps/mpoalgs.cc:nmultMPO", "itensor/mps/mps_impl.h:svdBond", "itensor/decomp.h:denmatDecomp", "itensor/mps/mps.cc:orthogonalize"]}
{"id": "C98", "title": "directSum puts two tensors side by side", "statement": "directSum(A,B,I,J) returns the tensor with the indices A and B have in common and, for every n, a new index for the n-th of I and the n-th of J whose dimension is the sum of theirs; its elements are those of A where all new indices have values of A, those of B, shifted, where all have values of B, and zero elsewhere; other indices that differ are an error.", "quantifier": "all tensors, numbers of summed indices, dimensions and orders of indices", "why_tests_cant": "every pair of indices multiplies both tensors by matrices of zeros and ones; the products depend on the number and the order of the other indices", "anchors": ["itensor/itensor.cc:directSum", "itensor/itensor.cc:directSumITensors", "itensor/index.cc:directSum", "itensor/itensor.cc:matrixITensor", "itensor/itensor.cc:delta"]}
{"id": "C99", "title": "A/B multiplies elements without summing", "statement": "A/B has the indices common to A and B, then the other indices of A, then those of B, and its element for given values of the indices is the product of the elements of A and B for these values; nothing outside the storages is read or written.", "quantifier": "all tensors with or without common indices, in every order of the indices, any dimensions", "why_tests_cant": "the loop reads through pointers set up from labels; every number and position of common indices gives another wiring", "anchors": ["itensor/itensor.cc:operator/=", "itensor/itdata/dense.cc:doTask(NCProd)", "itensor/itdata/qdense.cc:doTask(NCProd)", "itensor/indexset_impl.h:ncprod", "itensor/tensor/contract_impl.h:ncprod_impl", "itensor/itdata/qutil.h:loopContractedBlocks"]}
{"id": "C100", "title": "permute reorders the indices and keeps the tensor", "statement": "permute(T,inds) returns a tensor with the indices of T, with their arrows, in the order of inds; its element for given values of the indices is the one of T, for dense, diagonal and block-sparse storage; a list that is not one of the indices of T is an error.", "quantifier": "all tensors, orders of indices, dimensions, sectors and sets of blocks", "why_tests_cant": "the number of orders grows as a factorial, and every order moves the elements of every block to other addresses", "anchors": ["itensor/itensor.cc:permute", "itensor/itdata/dense.cc:doTask(Order)", "itensor/itdata/diag.h:doTask(Order)", "itensor/itdata/qdense.cc:permuteQDense"]}
{"id": "C101", "title": "A product state is the state asked for", "statement": "MPS(InitState) on any number of sites is a matrix product state with the site indices of the InitState whose component is 1 for the values set and 0 for all others, so that the inner product of two product states is 1 or 0; with quantum numbers it is made without error, totalQN is the sum of the quantum numbers of the values, and checkQNs is true; InitState::set changes the entry of its site only and refuses a site that does not exist.", "quantifier": "all numbers of sites, site indices, dimensions, values, up to four quantum numbers with any moduli", "why_tests_cant": "link quantum numbers are made by two recursions along the chain, and an error shows only for some sequences of values", "anchors": ["itensor/mps/mps.cc:init_tensors", "itensor/mps/mps.cc:MPS(InitState)", "itensor/mps/mps.cc:InitState::set", "itensor/mps/mpsalgs.cc:checkQNs", "itensor/mps/mpsalgs.cc:totalQN", "itensor/mps/mps.cc:findCenter"]}
{"id": "C102", "title": "Traces of operators", "statement": "trace and traceC of a matrix product operator are the sum over all values of its site indices of its diagonal elements, and of two operators the trace of their product.", "quantifier": "all operators with any number of sites, any dimensions of sites and links, any elements and names of the indices", "why_tests_cant": "the tensors are multiplied by delta tensors one site at a time, and the indices of the second operator are renamed; an error shows only for operators that are not symmetric", "anchors": ["itensor/mps/mpo.cc:traceC", "itensor/mps/mpo.cc:replaceSiteInds", "itensor/mps/mpo.cc:uniqueSiteInds", "itensor/itensor.cc:delta"]}
{"id": "C103", "title": "Products of block-sparse and diagonal tensors", "statement": "The product of a tensor stored in blocks and a tensor with elements only on the diagonal, both with quantum numbers, in either order, has as its elements the sums over the shared indices of the products of the elements.", "quantifier": "all block-sparse tensors of a flux, all diagonal tensors with any number of indices whose sectors have the same sizes, any numbers and sizes of sectors, any elements", "why_tests_cant": "three different code paths compute it (replacing an index, a block-sparse result, a diagonal result), each with its own offsets into the blocks; errors show only with several sectors of particular sizes", "anchors": ["itensor/itdata/qdiag.cc:blockDiagDense", "itensor/itdata/qdiag.cc:doTask(Contract,QDense,QDiag)", "itensor/itdata/qdiag.cc:doTask(Contract,QDiag,QDense)", "itensor/itdata/qdiag.h:diagBlockBounds", "itensor/itdata/qutil.h:loopContractedBlocks", "itensor/tensor/contract.h:contractDiagPartial", "itensor/tensor/contract.h:contractDiagFull"]}
{"id": "C104", "title": "factor and polar", "statement": "factor(T) returns two tensors with one new index in common whose product is the tensor, with the singular values shared evenly (A\u2020A = BB\u2020 = the singular values). polar(T) returns Q and P whose product is the tensor; P has the singular values as eigenvalues, is Hermitian, and Q is an isometry when the rank allows it.", "quantifier": "all tensors without quantum numbers with any indices, any singular value decomposition, any prime level", "why_tests_cant": "depends on which indices are contracted after priming; a clash of names gives a wrong result without an error", "anchors": ["itensor/decomp.cc:factor", "itensor/decomp.cc:polar", "itensor/itdata/diag.h:doTask(ApplyIT)", "itensor/itensor.h:prime"]}
{"id": "C105", "title": "The inner product of two operators applied to states, and the error of an approximate product", "statement": "inner(A,x,B,y) is the sum over all values of the output sites of the conjugated component of A x times the component of B y, also when x and y have the same site indices, so that one index is on four of the tensors multiplied, and the same links. errorMPOProd(y,A,x) is the distance of y from A x divided by the norm of A x.", "quantifier": "for all states and operators without quantum numbers on two or more sites, of any site and link dimensions, whose output sites agree, and all new link ids which are not in use", "why_tests_cant": "Tests compare a few random states on a few sites, up to a tolerance; one index on four tensors makes the order of the products matter, and the case of one site is not tested.", "anchors": ["/repo/itensor/mps/mpo.cc:663-715", "/repo/itensor/mps/mpo.cc:781-796"]}
{"id": "C106", "title": "The inner product of a state with two operators applied to another", "statement": "inner(x,A,B,y) is the sum over all values of the sites of the conjugated component of x times the component of A times the component of B y, whatever the output sites of A and the sites of x are called, also when A and B are one operator and share all their indices.", "quantifier": "for all states and operators without quantum numbers on two or more sites, of any site and link dimensions, such that A acts on the output sites of B, and all new ids which are not in use", "why_tests_cant": "Tests compare a few random states and operators on a few sites, up to a tolerance; which of the shared indices are contracted depends on the names of all of them, and the case of one site is not tested.", "anchors": ["/repo/itensor/mps/mpo.cc:726-761", "/repo/itensor/mps/mpo.cc:236-262"]}
{"id": "C107", "title": "What is written to an HDF5 file is read back", "statement": "An Index, a tensor or a matrix product state or operator written to an HDF5 file and read back is the one written: the same number, dimension, direction, tags, prime level and sectors for every index in the same order, the same kind of storage with the same blocks, offsets and elements, as many tensors and the same orthogonality limits; and writing under other names in the same group does not change it.", "quantifier": "for all tag sets with names without commas and spaces, all index sets, dense and block-sparse storage of any order, real or complex, and any number of sites, in any group", "why_tests_cant": "The tests are compiled only with the HDF5 library, write one object of each kind, and compare indices with ==, which looks at number and tags only, and tensors by the norm of the difference; the quantum numbers after reading are not looked at, and no diagonal storage is used.", "anchors": ["/repo/itensor/index.cc:767-834", "/repo/itensor/indexset.cc:693-724", "/repo/itensor/itensor.cc:815-849", "/repo/itensor/itdata/dense.cc:448-470", "/repo/itensor/itdata/qdense.cc:990-1068", "/repo/itensor/mps/mps.cc:1778-1810", "/repo/itensor/mps/mpo.cc:967-999", "/repo/itensor/qn.cc:512-546", "/repo/itensor/tagset.cc:289-312"]}
{"id": "C108", "title": "eigen of a tensor gives eigenvectors and eigenvalues", "statement": "eigen(T) of a tensor whose indices are some indices without primes and the same indices with one prime returns a tensor V with the indices without primes and one new index, and a diagonal tensor D with the new index and its primed copy, such that T*V and prime(V)*D have the same indices and the same elements, and no eigenvector is zero.", "quantifier": "for all tensors with any number of pairs of indices, of any dimensions, in any order, and any tags for the new index", "why_tests_cant": "The tests use one random tensor with three pairs and compare one norm; whether the reordering after the two products with the combiner is right depends on the order of the indices of T, and LAPACK gets the memory of the matrix whatever its view is.", "anchors": ["/repo/itensor/decomp.cc:578-690", "/repo/itensor/decomp.cc:818-860", "/repo/itensor/decomp.cc:68-79", "/repo/itensor/itdata/combiner.cc:60-180"]}
{"id": "C109", "title": "Terms of a Hamiltonian can be compared and sorted", "statement": "Two terms (HTerm) are equal by operator== exactly if their operators are the same and their coefficients agree within the tolerance, and operator< is a strict order, so that terms can be sorted and put into a std::set.", "quantifier": "for all pairs and triples of terms with any complex coefficients and any products of operators", "why_tests_cant": "No test compares terms; whether a comparison with a tolerance is an order depends on three coefficients close to each other, and reading one element past the end of a vector usually goes unnoticed.", "anchors": ["/repo/itensor/mps/autompo.cc:42-68", "/repo/itensor/mps/autompo.cc:224-245", "/repo/itensor/mps/autompo.h:91-133"]}
{"id": "C110", "title": "orthog makes columns orthonormal", "statement": "orthog(M,numpass) makes the first min(rows,columns) columns of M orthonormal and leaves the others, and for every n the first n columns span the same space as before if they are linearly independent.", "quantifier": "for all real and complex matrices, all sizes, and any number of passes from one up", "why_tests_cant": "The test uses one random 4x4 matrix, whose columns are independent, looks at the overlaps without their absolute value, and not at the space spanned; a column in the span of those before is never met.", "anchors": ["/repo/itensor/tensor/algs.cc:364-406", "/repo/itensor/tensor/algs.h:90-96"]}
{"id": "C111", "title": "Scattering, gathering and broadcasting between processes", "statement": "scatterVector gives every process its contiguous piece of the vector (lengths differing by at most one), gatherVector gives the first process all parts in the order of the processes, gathering after scattering restores the vector, and broadcast gives every process the data; no process waits for ever.", "quantifier": "for all vectors, numbers of processes, buffer sizes and orders of events", "why_tests_cant": "The order of events is not under the control of a test, no test runs with more than one process, and a message which just does not fit into the buffer needs one particular length.", "anchors": ["/repo/itensor/util/parallel.h:245-384", "/repo/itensor/util/parallel.h:469-531"]}
{"id": "C112", "title": "LogNum computes with real numbers", "statement": "A LogNum stands for the number it was made of; sum, product, quotient, negative, power and square root have the value they should have, and ==, <, <=, >, >= and magnitudeLessThan compare the values.", "quantifier": "for all real numbers", "why_tests_cant": "The tests use a few numbers, multiply zero only by -1 and compare the result only with itself and with one, never take a power of a negative number, and compare results with a tolerance.", "anchors": ["/repo/itensor/real.h:67-336"]}
{"id": "C113", "title": "Quantum numbers and arrows of an MPO", "statement": "checkQNs(MPO) returns without an error for every MPO whose tensors have zero divergence and whose arrows point to one centre, and for no other; putMPOLinks keeps the total divergence and gives tensors of zero divergence if the total is zero.", "quantifier": "for all MPOs with quantum numbers, of any length", "why_tests_cant": "No test calls checkQNs for an MPO, and putMPOLinks is only met with identity operators; a test which calls it once cannot say that no MPO at all is accepted.", "anchors": ["/repo/itensor/mps/mpo.cc:290-379", "/repo/itensor/mps/mpo.cc:391-432"]}
{"id": "C114", "title": "A site set keeps its sites through construction, copying, writing, reading and merging", "statement": "A site set of N sites gives site j for j from 1 to N and throws for every other number; set changes one site of one set; a set written and read back has the same index at every site; merge gives the sites of the first range and then those of the second, each of the type it had, and refuses ranges that are not in the sets.", "quantifier": "for all lengths, all site types, all ranges, all sets of handles to site sets, and anything that follows in the stream", "why_tests_cant": "The tests build a few fixed site sets and look at their operators; none writes, reads or merges one. They cannot say that every range is placed correctly, that a read leaves no site of the old set behind, or that a copy is independent.", "anchors": ["/repo/itensor/mps/siteset.h:41-131", "/repo/itensor/mps/siteset.h:221-360", "/repo/itensor/mps/siteset.h:430-602"]}
{"id": "C115", "title": "The size and the diagonal of a projected operator", "statement": "LocalOp::size is the number of elements of the tensors on which the operator acts, whatever the order of the indices and whatever was asked before; LocalOp::diag holds the diagonal elements of that operator.", "quantifier": "for all tensors, all orders of their indices, all dimensions, and all sequences of calls", "why_tests_cant": "No test of the projected operator calls size; davidson stops at size, so a wrong or outdated number shows only for small spaces. The one test of diag checks which indices the result has, not its elements.", "anchors": ["/repo/itensor/mps/localop.h:102-107", "/repo/itensor/mps/localop.h:259-322", "/repo/itensor/mps/localop.h:408-530"]}
{"id": "C116", "title": "product, zip and enumerate of ranges", "statement": "A loop over product(ranges) gives every combination of elements once per combination of positions, the leftmost changing fastest, and nothing if a range is empty; a loop over zip(ranges) of equal lengths gives the i-th elements together; enumerate gives every element with its position.", "quantifier": "for all numbers of ranges and all lengths, empty ranges included", "why_tests_cant": "The header has no test in the repository; tests would use a few ranges that are not empty, and undefined behaviour at an end need not show.", "anchors": ["/repo/itensor/util/itertools.h:74-163", "/repo/itensor/util/itertools.h:186-262", "/repo/itensor/util/itertools.h:281-308"]}
{"id": "C117", "title": "Options given as a string", "statement": "An option string such as \"Quiet,Cutoff=1E-8,Name=x\", with spaces anywhere, sets each option named in it to what its last part says: a name alone to true, a value to a number if it reads as one, to true or false, or else to the text; it leaves the other options alone, and a number out of range throws.", "quantifier": "for all option strings and all options set before", "why_tests_cant": "The tests parse three strings, in which every number begins with a digit or a minus sign, no text does, there are no spaces and no name comes twice.", "anchors": ["/repo/itensor/util/args.cc:385-444", "/repo/itensor/util/args.cc:200-210", "/repo/itensor/util/args.cc:297-301"]}
{"id": "C118", "title": "Options written to a stream and read back", "statement": "An Args written to a stream and read back, into an Args which may have had any other options, has the same options with the same values and types and no others, and the read takes just the bytes which were written.", "quantifier": "for all sets of options of all types, all options of the object read into, and all that follows in the stream", "why_tests_cant": "One test writes four options and reads them into an empty Args; that nothing is left of the options the object had before depends on the resizing of an array which moves between two places in memory.", "anchors": ["/repo/itensor/util/args.cc:140-160", "/repo/itensor/util/args.cc:456-466", "/repo/itensor/util/readwrite.h:265-316"]}
{"id": "C119", "title": "Sums over processes", "statement": "sum(env,obj) gives in the first process the objects of all processes added up, each once and in the order of the processes, whatever the order of events, and leaves the other processes with their own; allSum gives this total in every process.", "quantifier": "for all numbers of processes, all objects, all sizes of buffer and all orders of events", "why_tests_cant": "The order of events is not under the control of a test, no test runs with more than one process, and the message which overflows the buffer needs one particular length.", "anchors": ["/repo/itensor/util/parallel.h:395-429", "/repo/itensor/util/parallel.h:284-294"]}
{"id": "C120", "title": "Exchange of the site indices of an MPO", "statement": "swapSiteInds turns an MPO into its transpose: every element of the result, contracted over the links, is the element of the original with the two site indices of every site exchanged, whatever the order of the indices in each tensor, although later rounds of the loop look for site indices next to tensors already changed.", "quantifier": "for all lengths, all tensors with two site indices of equal dimension each, all orders of their indices and all values of the site indices", "why_tests_cant": "No unit test calls swapSiteInds; a test would check one length and one order of indices.", "anchors": ["/repo/itensor/mps/mpo.cc:271-288", "/repo/itensor/mps/mps.cc:1213-1220", "/repo/itensor/itensor.cc:732-742"]}
