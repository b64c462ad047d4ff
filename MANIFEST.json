{
 "claims": [
  {
   "property": "C01",
   "status": "proved",
   "theorems": [
    "Verif.TagSet.TagSet.C01_refines",
    "Verif.TagSet.TagSet.C01_hasTags",
    "Verif.TagSet.TagSet.C01_size",
    "Verif.TagSet.TagSet.C01_addTag_fails",
    "Verif.TagSet.TagSet.C01_removeTag_ub"
   ],
   "note": "Set refinement for every history of addTag/removeTag from the API; over-capacity adds throw; removeTag of an absent tag from a full TagSet is UB in the code and is modelled as a distinct outcome."
  },
  {
   "property": "C02",
   "status": "proved",
   "theorems": [
    "Verif.TagSet.TagSet.C02_eq_iff",
    "Verif.TagSet.TagSet.C02_order_irrelevant"
   ],
   "note": ""
  },
  {
   "property": "C03",
   "status": "partial",
   "theorems": [
    "Verif.TagSet.TagSet.C03_roundtrip_partial",
    "Verif.TagSet.TagSet.C03_clean_step",
    "Verif.TagSet.TagSet.C03_history_partial",
    "Verif.TagSet.TagSet.C03_noTags_counterexample",
    "Verif.TagSet.TagSet.C03_h5_roundtrip"
   ],
   "note": "Binary round trip holds while no stale tags remain past size_; noTags() leaves them and the round trip then resurrects tags (counterexample proved). HDF5 round trip proved in full."
  },
  {
   "property": "C04",
   "status": "proved",
   "theorems": [
    "Verif.TagSet.TagSet.C04_replaceTags",
    "Verif.TagSet.TagSet.C04_setTags",
    "Verif.TagSet.TagSet.C04_prime"
   ],
   "note": ""
  },
  {
   "property": "C05",
   "status": "partial",
   "theorems": [
    "Verif.Index.IndexSet.C05_mapPrime",
    "Verif.Index.IndexSet.C05_swapPrime",
    "Verif.Index.IndexSet.C05_swapTags_partial",
    "Verif.Index.IndexSet.C05_swapTags_primes_partial",
    "Verif.Index.IndexSet.C05_swapTags_match_counterexample",
    "Verif.Index.IndexSet.C05_swapTags_equal_counterexample",
    "Verif.Index.IndexSet.C05_swapTags_full_counterexample"
   ],
   "note": "mapPrime and swapPrime in full; swapTags without a match argument, with and without prime levels, whenever it returns. False, with counterexamples proved: with a match argument tags are lost; with equal prime levels an index which has both tag sets loses one; an index with four tags makes swapTags(\"0\",\"1\") throw."
  },
  {
   "property": "C06",
   "status": "proved",
   "theorems": [
    "Verif.QN.C06_add_val",
    "Verif.QN.C06_add_comm",
    "Verif.QN.C06_add_assoc",
    "Verif.QN.C06_add_zero",
    "Verif.QN.C06_add_neg",
    "Verif.QN.C06_sub_val",
    "Verif.QN.C06_scale_val",
    "Verif.QN.isQN_addNum"
   ],
   "note": "For QNs whose names together fit in the four slots (the statement's scope); beyond that see C08."
  },
  {
   "property": "C07",
   "status": "partial",
   "theorems": [
    "Verif.QN.C07_eq_iff",
    "Verif.QN.C07_lt_iff",
    "Verif.QN.C07_lt_strict",
    "Verif.QN.C07_trichotomy",
    "Verif.QN.C07_trichotomy_counterexample"
   ],
   "note": "== is proved in full; < is a strict total order compatible with == when the names fit in four slots; a counterexample beyond that is proved."
  },
  {
   "property": "C08",
   "status": "partial",
   "theorems": [
    "Verif.QN.C08_no_loss_partial",
    "Verif.QN.C08_add_drops_counterexample"
   ],
   "note": "Full statement is false: the fifth name is silently dropped."
  },
  {
   "property": "C09",
   "status": "partial",
   "theorems": [
    "Verif.QN.C09_binary_roundtrip",
    "Verif.QN.C09_h5_counterexample",
    "Verif.QN.C09_h5_full_partial"
   ],
   "note": "Binary format proved; HDF5 reader is wrong unless all four slots are used (counterexample proved)."
  },
  {
   "property": "C10",
   "status": "proved",
   "theorems": [
    "Verif.Index.C10_sector",
    "Verif.Index.C10_sector_unique",
    "Verif.Index.C10_out_of_range"
   ],
   "note": ""
  },
  {
   "property": "C100",
   "status": "partial",
   "theorems": [
    "Verif.Net.C100_permute_partial",
    "Verif.QDense.C100_permute_qn_partial",
    "Verif.QDense.C100_permute_unset",
    "Verif.Net.C100_mismatch",
    "Verif.QDense.C100_mismatch_qn",
    "Verif.Net.C100_repeated_counterexample"
   ],
   "note": "All orders and storages (dense, diagonal, block-sparse, not allocated) except diagonal storage with quantum numbers. The claim about errors is false when the list repeats an index: the result has a default constructed Index (counterexample)."
  },
  {
   "property": "C101",
   "status": "partial",
   "theorems": [
    "Verif.MPS.C101_product_state_partial",
    "Verif.MPS.C101_dense_partial",
    "Verif.MPS.C101_overlap_partial",
    "Verif.MPS.C101_set",
    "Verif.MPS.C101_one_site_counterexample",
    "Verif.MPS.C101_arrow_counterexample"
   ],
   "note": "For two or more sites, with quantum numbers when the site indices have arrow Out (as all site types make them). Overlaps are proved without quantum numbers. False of the code for one site (null index dereferenced, or a second index on the tensor) and for site indices with arrow In (counterexamples)."
  },
  {
   "property": "C102",
   "status": "partial",
   "theorems": [
    "Verif.MPS.C102_trace",
    "Verif.MPS.C102_trace_product_partial",
    "Verif.MPS.C102_trace_product_length",
    "Verif.MPS.C102_same_sites_counterexample"
   ],
   "note": "The trace of one operator is proved in full (dense tensors). The trace of a product is proved when the site indices of the second operator on one side are those of the first on the other side, and the remaining ones are others; for two operators with the same two site indices the code computes the trace with the transpose (counterexample)."
  },
  {
   "property": "C103",
   "status": "partial",
   "theorems": [
    "Verif.QDense.C103_sparse_diag_partial",
    "Verif.QDense.C103_diag_sparse_partial",
    "Verif.QDense.C103_replace_counterexample",
    "Verif.QDense.C103_full_counterexample"
   ],
   "note": "Proved for diagonal tensors whose indices have sectors of the same sizes, in all three branches of the code. With different sizes the product is wrong in two of the branches (counterexamples)."
  },
  {
   "property": "C104",
   "status": "partial",
   "theorems": [
    "Verif.Factor.C104_factor_partial",
    "Verif.Factor.C104_polar_partial",
    "Verif.Factor.Ex.C104_polar_counterexample"
   ],
   "note": "Proved for tensors without quantum numbers, from what svd returns (orthogonal factors whose product is the tensor). If an index of the tensor is the primed copy of an index of the second group the result of polar is wrong (counterexample)."
  },
  {
   "property": "C105",
   "status": "partial",
   "theorems": [
    "Verif.MPS.C105_inner_partial",
    "Verif.MPS.C105_error_partial",
    "Verif.MPS.C105_error_counterexample",
    "Verif.MPS.C56_AxBy_counterexample",
    "Verif.MPS.C56_match_counterexample"
   ],
   "note": "On two or more sites, operators with the same output sites, dense storage without quantum numbers. On one site the tensors of the site are multiplied in twice (C56_AxBy_counterexample), so inner gives the square and errorMPOProd of an exact product is not zero (C105_error_counterexample); with other output sites the function reports an error (C56_match_counterexample). Exact arithmetic over the complex numbers for errorMPOProd; the norm of A x must not be zero."
  },
  {
   "property": "C106",
   "status": "partial",
   "theorems": [
    "Verif.MPS.C106_xABy_partial",
    "Verif.MPS.C106_xABy_counterexample"
   ],
   "note": "On two or more sites, dense storage without quantum numbers, exact arithmetic. On one site the tensors of the site are multiplied in twice and the value is the square (C106_xABy_counterexample)."
  },
  {
   "property": "C107",
   "status": "partial",
   "theorems": [
    "Verif.Hdf5.C107_index_partial",
    "Verif.Hdf5.C107_tensor_partial",
    "Verif.Hdf5.C107_train_partial",
    "Verif.Hdf5.C107_qn_counterexample",
    "Verif.Hdf5.C107_storage_counterexample",
    "Verif.Hdf5.C107_edges_counterexample",
    "Verif.Hdf5.C107_reuse_counterexample"
   ],
   "note": "Proved for indices without quantum numbers or with quantum numbers of four names, dense and block-sparse storage. False of the code for quantum numbers with fewer names (the flux is lost or the Index cannot be read), for diagonal, scalar and missing storage (cannot be written), for the tensors at positions 0 and N+1 (lost), and for reading block-sparse storage into an object with blocks of lower order (undefined behaviour). The HDF5 library itself is not modelled."
  },
  {
   "property": "C108",
   "status": "partial",
   "theorems": [
    "Verif.Eigen.C108_eigen_partial",
    "Verif.Eigen.C108_tags_counterexample"
   ],
   "note": "Proved for tensors without quantum numbers (with them the code ends in an error) and tags without a prime level, LAPACK given by what it promises (each column an eigenvector, none zero). False of the code for tags with a prime level: the last product ends in an error."
  },
  {
   "property": "C109",
   "status": "partial",
   "theorems": [
    "Verif.AutoMPO.C109_different_partial",
    "Verif.AutoMPO.C109_equal_counterexample",
    "Verif.AutoMPO.C109_order_partial",
    "Verif.AutoMPO.C109_cycle_counterexample"
   ],
   "note": "Proved: different terms compare as different, and operator< is a strict total order among terms whose coefficients are the same or further apart than the tolerance. False of the code: equal terms never compare as equal (the loop reads past the end of both vectors), and for coefficients within the tolerance of each other operator< has cycles. Rounding is not modelled."
  },
  {
   "property": "C11",
   "status": "proved",
   "theorems": [
    "Verif.Index.IndexSet.C11_common",
    "Verif.Index.IndexSet.C11_unique",
    "Verif.Index.IndexSet.C11_union",
    "Verif.Index.IndexSet.C11_noncommon",
    "Verif.Index.IndexSet.C11_cons",
    "Verif.Index.IndexSet.C11_same"
   ],
   "note": ""
  },
  {
   "property": "C110",
   "status": "partial",
   "theorems": [
    "Verif.Orthog.C110_orthonormal_partial",
    "Verif.Orthog.C110_span_partial",
    "Verif.Orthog.C110_random_counterexample"
   ],
   "note": "Proved without rounding: orthonormal if no random vector is drawn in the last pass of a column, and the same span if none is drawn at all. False of the code if a random vector is drawn in the last pass (with one pass: for any column in the span of those before), since --pass changes only a copy."
  },
  {
   "property": "C111",
   "status": "partial",
   "theorems": [
    "Verif.Mpi.C111_scatter_partial",
    "Verif.Mpi.C111_gather_partial",
    "Verif.Mpi.C111_roundtrip_partial",
    "Verif.Mpi.C111_ends",
    "Verif.Mpi.C111_gather_ends",
    "Verif.Mpi.C111_scatter_unbuffered",
    "Verif.Mpi.C111_gather_unbuffered",
    "Verif.Mpi.C111_broadcast_partial",
    "Verif.Mpi.C111_overread_counterexample",
    "Verif.Mpi.C111_overflow_counterexample",
    "Verif.Mpi.C111_bufsize_counterexample"
   ],
   "note": "scatterVector and gatherVector are proved for every order of events, and nobody waits for ever whichever messages are buffered; the buffer sizes must be equal. broadcast is false: it always reads a character after the terminating zero, and for data of length -1 modulo the buffer size it writes past the end of the buffer of the receiver; otherwise the receivers get the data followed by two more characters."
  },
  {
   "property": "C112",
   "status": "partial",
   "theorems": [
    "Verif.LogNum.C112_arith_partial",
    "Verif.LogNum.C112_order_partial",
    "Verif.LogNum.C112_pow_partial",
    "Verif.LogNum.C112_zero_counterexample",
    "Verif.LogNum.C112_pow_counterexample",
    "Verif.LogNum.C112_div_counterexample"
   ],
   "note": "Proved without rounding and without DEBUG. False of the code: zero times two is not == zero, is > zero and not <= zero; pow keeps the sign of a negative number, so that minus two squared is minus four; a number divided by zero is zero without DEBUG."
  },
  {
   "property": "C113",
   "status": "partial",
   "theorems": [
    "Verif.MPS.C113_sound_partial",
    "Verif.MPS.C113_links_partial",
    "Verif.MPS.C113_never_counterexample",
    "Verif.MPS.C113_arrows_counterexample",
    "Verif.MPS.C113_links_counterexample"
   ],
   "note": "What checkQNs(MPO) accepts has zero divergences, and putMPOLinks keeps the total divergence and zero divergences. False of the code: checkQNs(MPO) throws for every MPO with four or more tensors, because linkIndex(H,i-1) has the arrow of tensor i-1; putMPOLinks doubles the divergences instead of making them zero, and throws for one site."
  },
  {
   "property": "C114",
   "status": "partial",
   "theorems": [
    "Verif.SiteSet.C114_build",
    "Verif.SiteSet.C114_set_frame",
    "Verif.SiteSet.C114_roundtrip_partial",
    "Verif.SiteSet.C114_write_unassigned",
    "Verif.SiteSet.C114_merge",
    "Verif.SiteSet.C114_merge_refuses",
    "Verif.SiteSet.C114_merge_mixed_partial",
    "Verif.SiteSet.C114_copy_counterexample",
    "Verif.SiteSet.C114_null_counterexample",
    "Verif.SiteSet.C114_read_counterexample",
    "Verif.SiteSet.C114_merge_mixed_counterexample"
   ],
   "note": "Construction, set, write and read of a set that is not empty, and merge. False of the code: a copy shares its sites with the original; set on a default constructed set goes through a null pointer; reading an empty set leaves the old sites in place; merge of MixedSiteSets gives a site the other type when the parities do not fit."
  },
  {
   "property": "C115",
   "status": "partial",
   "theorems": [
    "Verif.LocalOp.C115_size_two",
    "Verif.LocalOp.C115_size_one",
    "Verif.LocalOp.C115_size_zero",
    "Verif.LocalOp.C115_cache_partial",
    "Verif.LocalOp.C115_diag",
    "Verif.LocalOp.C115_diag_one",
    "Verif.LocalOp.C115_cache_counterexample",
    "Verif.LocalOp.C115_null_counterexample",
    "Verif.LocalOp.C115_qn_counterexample"
   ],
   "note": "size for zero, one and two sites and any order of indices; the kept number is the present one without calls of numCenter; diag for one and two sites without quantum numbers. False of the code: numCenter keeps the old size; numCenter(2) after an update for one site makes size follow a null pointer; with quantum numbers diag always throws. Not covered: diag of a link between sites."
  },
  {
   "property": "C116",
   "status": "partial",
   "theorems": [
    "Verif.Itertools.C116_product_partial",
    "Verif.Itertools.C116_zip",
    "Verif.Itertools.C116_zip_unequal",
    "Verif.Itertools.C116_enumerate",
    "Verif.Itertools.C116_empty_counterexample"
   ],
   "note": "product when only the last range may be empty; zip and enumerate in full, and that zip of different lengths is always undefined. False of the code: with an empty range that is not the last, product dereferences its end."
  },
  {
   "property": "C117",
   "status": "partial",
   "theorems": [
    "Verif.Util.Args.C117_string_partial",
    "Verif.Util.Args.C117_range",
    "Verif.Util.Args.C117_text_counterexample",
    "Verif.Util.Args.C117_number_counterexample"
   ],
   "note": "All strings in which a value is a number just when it begins with a digit or a sign; strtod is a parameter. False of the code otherwise (counterexamples proved): a text which begins with a digit or a sign becomes the number at its beginning, and a number such as .5 is stored as a text."
  },
  {
   "property": "C118",
   "status": "proved",
   "theorems": [
    "Verif.Util.Args.C118_roundtrip"
   ],
   "note": "Stated for objects which represent a map of options (MapRep), which C31 shows for all sequences of calls except removing an option when exactly 8 are defined."
  },
  {
   "property": "C119",
   "status": "partial",
   "theorems": [
    "Verif.Mpi.C119_sum_partial",
    "Verif.Mpi.C119_total_partial",
    "Verif.Mpi.C119_allSum_partial",
    "Verif.Mpi.C119_overflow_counterexample"
   ],
   "note": "With buffered sends. sum for all objects, with any addition; allSum when the remainder of the message leaves room for two more characters. False of the code otherwise: one character short of a full buffer, the buffer of the receivers overflows. The version for a double is MPI_Reduce and is not modelled."
  },
  {
   "property": "C12",
   "status": "proved",
   "theorems": [
    "Verif.Index.IndexSet.C12_labels",
    "Verif.Index.IndexSet.C12_product_indices",
    "Verif.Index.IndexSet.C12_product_labels"
   ],
   "note": ""
  },
  {
   "property": "C120",
   "status": "proved",
   "theorems": [
    "Verif.SwapSites.C120_transpose"
   ],
   "note": "A tensor is a list of indices and data by position; swapInds is one step which exchanges two indices in the list (its index part is C13). The site indices of one site occur in no other tensor."
  },
  {
   "property": "C13",
   "status": "proved",
   "theorems": [
    "Verif.Index.IndexSet.C13_replaceInds",
    "Verif.Index.IndexSet.C13_swapInds"
   ],
   "note": "Under the stated conditions (distinct indices, equal dimensions, reserved prime level not in use)."
  },
  {
   "property": "C14",
   "status": "proved",
   "theorems": [
    "Verif.Tensor.C14_offset_bijection",
    "Verif.Tensor.C14_column_major"
   ],
   "note": ""
  },
  {
   "property": "C15",
   "status": "proved",
   "theorems": [
    "Verif.Tensor.C15_rangeIter",
    "Verif.Tensor.C15_gcounter",
    "Verif.Tensor.C15_order_zero_ub",
    "Verif.Tensor.C15_zero_extent_runs"
   ],
   "note": "For positive extents and order at least one (the statement's scope); order 0 is UB in the code and a zero first extent does not stop; both boundary facts proved."
  },
  {
   "property": "C16",
   "status": "proved",
   "theorems": [
    "Verif.Tensor.C16_inverse",
    "Verif.Tensor.C16_isTrivial",
    "Verif.Tensor.C16_permute",
    "Verif.Tensor.C16_calcPerm",
    "Verif.Tensor.C16_calcPerm_throws",
    "Verif.Tensor.C16_calcPerm_shorter_counterexample"
   ],
   "note": ""
  },
  {
   "property": "C17",
   "status": "proved",
   "theorems": [
    "Verif.Tensor.C17_transform_pairs",
    "Verif.Tensor.C17_transform",
    "Verif.Tensor.C17_permute_view"
   ],
   "note": "Source and destination memories are distinct in the model."
  },
  {
   "property": "C18",
   "status": "proved",
   "theorems": [
    "Verif.Tensor.C18_contract"
   ],
   "note": "For every label pattern, all permutation strategies of CProps::compute; scalars are exact (commutative ring), tensors column-major, extents positive."
  },
  {
   "property": "C19",
   "status": "partial",
   "theorems": [
    "Verif.Tensor.C19_accumulate_partial",
    "Verif.Tensor.C19_accumulate_counterexample"
   ],
   "note": "Proved for the label order contractIS produces and scalar operands; false of the code when C itself is permuted (counterexample)."
  },
  {
   "property": "C20",
   "status": "proved",
   "theorems": [
    "Verif.Tensor.C20_gemm",
    "Verif.Tensor.C20_gemm_complex"
   ],
   "note": "BLAS gemm itself is specified, not modelled; complex numbers are pairs over a commutative ring."
  },
  {
   "property": "C21",
   "status": "proved",
   "theorems": [
    "Verif.QDense.C21_regions",
    "Verif.QDense.C21_ofDiv",
    "Verif.QDense.C21_setElt"
   ],
   "note": "Sector QNs built by the API using at most four names together; sector lists non-empty."
  },
  {
   "property": "C22",
   "status": "proved",
   "theorems": [
    "Verif.QDense.C22_getset",
    "Verif.QDense.C22_get"
   ],
   "note": ""
  },
  {
   "property": "C23",
   "status": "partial",
   "theorems": [
    "Verif.QDense.C23_daxpy_partial",
    "Verif.QDense.C23_order0_partial",
    "Verif.QDense.C23_order0_counterexample",
    "Verif.QDense.C23_mixed_order0_counterexample"
   ],
   "note": "Order at least one: in full. Order 0: only when the left storage has its element; with empty left storage the sum is lost, with complex left and real right storage memory is read out of bounds (counterexamples proved)."
  },
  {
   "property": "C24",
   "status": "proved",
   "theorems": [
    "Verif.QDense.C24_contract",
    "Verif.QDense.C24_flux"
   ],
   "note": "For every execution order of the block tasks; exact scalars, shared indices with equal sector sizes, positive sector sizes, storage sizes within the 64-bit range."
  },
  {
   "property": "C25",
   "status": "proved",
   "theorems": [
    "Verif.QDense.C25_schedule"
   ],
   "note": "Interleavings at any granularity of steps confined to one block of C, its flag and private memory; sequentially consistent memory."
  },
  {
   "property": "C26",
   "status": "partial",
   "theorems": [
    "Verif.Net.C26_roundtrip",
    "Verif.Net.C26_combine_product",
    "Verif.Net.C26_uncombine_product",
    "Verif.Net.C26_missing",
    "Verif.Net.C26_shared_counterexample",
    "Verif.QDense.C26_qn",
    "Verif.QDense.C26_qn_missing_counterexample"
   ],
   "note": "Dense tensors: combining and uncombining in full, both code paths, with errors for missing indices. A tensor with the combined index and also some of the others is handled wrongly (counterexample). Block-sparse tensors (C26_qn): combining, uncombining at any position and the round trip, the correspondence of values a bijection with the sectors of C27; a missing index is undefined there (counterexample). Diagonal storages are not combined by the code."
  },
  {
   "property": "C27",
   "status": "proved",
   "theorems": [
    "Verif.QDense.C27_sectors"
   ],
   "note": "Sector sizes and quantum numbers in full; the memory of combined tensors is C26."
  },
  {
   "property": "C28",
   "status": "partial",
   "theorems": [
    "Verif.Net.C28_elements",
    "Verif.Net.C28_toDense",
    "Verif.Net.C28_dense_diag_partial",
    "Verif.Net.C28_diag_dense_partial",
    "Verif.Net.C28_as_dense_partial",
    "Verif.Net.C28_operator_partial",
    "Verif.Net.C28_short_counterexample"
   ],
   "note": "Reading and conversion in full. Products of dense and diagonal tensors in both orders, unless only indices longer than the diagonal remain: then the storage of the result does not fit its indices (counterexample). No quantum numbers; Diag with Diag is not defined in the code."
  },
  {
   "property": "C29",
   "status": "proved",
   "theorems": [
    "Verif.Cow.C29_isolation",
    "Verif.Cow.C29_values",
    "Verif.Cow.C29_library",
    "Verif.Cow.C29_reference_counterexample"
   ],
   "note": "All programs, any number of tensors, one thread. Tasks are arbitrary programs with references (isolation) or do not read the old storage after modifyData (values; all shapes of tasks of the library, except the one of C66_complex_counterexample). A block reference kept by the user across a copy breaks it (counterexample, outside the statement)."
  },
  {
   "property": "C30",
   "status": "partial",
   "theorems": [
    "Verif.Util.InfArray.C30_step_partial",
    "Verif.Util.InfArray.C30_run_partial",
    "Verif.Util.InfArray.C30_construct",
    "Verif.Util.InfArray.C30_copy",
    "Verif.Util.InfArray.C30_swap_partial",
    "Verif.Util.InfArray.C30_swap_counterexample",
    "Verif.Util.InfArray.C30_erase_counterexample",
    "Verif.Util.InfArray.C30_moved_counterexample",
    "Verif.Util.InfArray.C30_resize_counterexample"
   ],
   "note": "All call sequences except erasing from an array of exactly ArrSize+1 elements; swap only for operands that fit inline. Elements added by resize are unspecified. Proved counterexamples: erase at ArrSize+1, swap with heap storage, push_back on a moved-from object, resize showing old elements."
  },
  {
   "property": "C31",
   "status": "partial",
   "theorems": [
    "Verif.Util.Args.C31_args_partial",
    "Verif.Util.Args.C31_plusEq",
    "Verif.Util.Args.C31_counterexample"
   ],
   "note": "All sequences except removing an option when exactly 8 are defined (then a copy differs from the original; counterexample proved). Parsing of option strings is C117."
  },
  {
   "property": "C32",
   "status": "proved",
   "theorems": [
    "Verif.Util.AutoVector.C32_map",
    "Verif.Util.AutoVector.C32_map_range",
    "Verif.Util.AutoVector.C32_bounds",
    "Verif.Util.AutoVector.C32_dot",
    "Verif.Util.AutoVector.C32_clear_counterexample"
   ],
   "note": "clear() leaves the bounds of the old range; the resulting unchecked access is a proved counterexample outside the statement."
  },
  {
   "property": "C33",
   "status": "partial",
   "theorems": [
    "Verif.Stream.C33_values",
    "Verif.Stream.C33_containers",
    "Verif.Stream.C33_tagset_qn_partial",
    "Verif.Stream.C33_index_partial",
    "Verif.Stream.C33_indexset_partial",
    "Verif.Stream.C33_storage",
    "Verif.Stream.C33_tensor_partial",
    "Verif.Stream.C33_index_counterexample",
    "Verif.Stream.C33_tensor_counterexample"
   ],
   "note": "Byte-exact, followed by any bytes. Missing: tag sets with stale slots (false, C03), reading into an object that already has contents (false for Index and for tensors without storage, counterexamples proved), short streams, Global::read32BitIDs."
  },
  {
   "property": "C34",
   "status": "partial",
   "theorems": [
    "Verif.Decomp.C34_truncate_partial",
    "Verif.Decomp.C34_zero_counterexample",
    "Verif.Decomp.C34_ub_counterexample"
   ],
   "note": "Spectra with positive first value and bounds at least one; otherwise false (counterexamples proved)."
  },
  {
   "property": "C35",
   "status": "partial",
   "theorems": [
    "Verif.Decomp.C35_absolute",
    "Verif.Decomp.C35_relative_partial",
    "Verif.Decomp.C35_counterexample",
    "Verif.Decomp.C35_respect_counterexample"
   ],
   "note": "Absolute modes in full without RespectDegenerate. Relative mode reports the fraction times the largest value (proved, counterexample to the claim). With RespectDegenerate false (counterexample)."
  },
  {
   "property": "C36",
   "status": "partial",
   "theorems": [
    "Verif.Decomp.C36_multiplet_partial",
    "Verif.Decomp.C36_counterexample"
   ],
   "note": "Multiplets are never split and maxdim holds; the lower bound fails when maxdim falls inside a multiplet (counterexample)."
  },
  {
   "property": "C37",
   "status": "partial",
   "theorems": [
    "Verif.Decomp.C37_select_partial",
    "Verif.Decomp.C37_counterexample",
    "Verif.Decomp.C37_negative_counterexample"
   ],
   "note": "For non-negative values none of which equals the upper bound exactly; otherwise false (counterexamples)."
  },
  {
   "property": "C38",
   "status": "proved",
   "theorems": [
    "Verif.Sweeps.C38_list",
    "Verif.Sweeps.C38_func",
    "Verif.Sweeps.C38_table",
    "Verif.Sweeps.C38_boundary"
   ],
   "note": "At least one sweep (with none the setter reads outside the vector)."
  },
  {
   "property": "C39",
   "status": "proved",
   "theorems": [
    "Verif.Sweeps.C39_sweep",
    "Verif.Sweeps.C39_short"
   ],
   "note": "Unbounded integers."
  },
  {
   "property": "C40",
   "status": "proved",
   "theorems": [
    "Verif.Limits.C40_limits",
    "Verif.Limits.C40_position",
    "Verif.Limits.C40_zero_counterexample",
    "Verif.Limits.C40_unlinked_counterexample"
   ],
   "note": "Factorizations are given by their specification. Sites are 1..N and neighbouring sites have a link index in common: without these the claim fails (counterexamples)."
  },
  {
   "property": "C41",
   "status": "partial",
   "theorems": [
    "Verif.Disk.C41_array",
    "Verif.Disk.C41_off_partial",
    "Verif.Disk.C41_off_counterexample",
    "Verif.Disk.C41_stale_counterexample",
    "Verif.Disk.C41_dag_counterexample"
   ],
   "note": "Reads return what was last stored for all sequences of calls; turning writing off keeps the tensors only after WriteAll and no change (counterexamples otherwise). References held across calls are not modelled."
  },
  {
   "property": "C42",
   "status": "proved",
   "theorems": [
    "Verif.Misc.C42_sum",
    "Verif.Misc.C42_empty"
   ],
   "note": ""
  },
  {
   "property": "C43",
   "status": "partial",
   "theorems": [
    "Verif.MPS.C43_sum_partial",
    "Verif.MPS.C43_self_partial",
    "Verif.MPS.C43_length",
    "Verif.MPS.C43_one_site_counterexample"
   ],
   "note": "Any length from two sites, any links and bond dimensions, also a state added to itself. Missing: quantum numbers, and the final orthogonalize (C63). With one site the code ends with an error (proved)."
  },
  {
   "property": "C44",
   "status": "proved",
   "theorems": [
    "Verif.LocalMPO.C44_position"
   ],
   "note": "Environments in memory, any boundary tensors, any number of centre sites; the product forming an environment is an arbitrary function. The stale pointers LocalOp holds after a change of the window are not modelled."
  },
  {
   "property": "C45",
   "status": "partial",
   "theorems": [
    "Verif.LocalMPO.C45_disk_partial",
    "Verif.LocalMPO.C45_step_counterexample",
    "Verif.LocalMPO.C45_boundary_counterexample",
    "Verif.LocalMPO.C45_off_counterexample"
   ],
   "note": "Without boundary tensors and steps of exactly nc+1 bonds; with either the result differs from that in memory, as it does after turning writing off (counterexamples)."
  },
  {
   "property": "C46",
   "status": "partial",
   "theorems": [
    "Verif.LocalMPO.C46_left",
    "Verif.LocalMPO.C46_right_counterexample",
    "Verif.LocalMPO.C46_first_counterexample"
   ],
   "note": "From the left in full when there is a left environment. From the right the call is always refused, as is a shift from the first site without boundary tensor (proved for all states)."
  },
  {
   "property": "C47",
   "status": "partial",
   "theorems": [
    "Verif.LocalMPO.C47_sum",
    "Verif.LocalMPO.C47_penalty",
    "Verif.LocalMPO.C47_expect_counterexample",
    "Verif.LocalMPO.C47_penalty_counterexample"
   ],
   "note": "product, deltaRho and diag are the sums. expect is the sum times the number of members (proved for all sets); with projectors expect ignores them."
  },
  {
   "property": "C48",
   "status": "proved",
   "theorems": [
    "Verif.AutoMPO.C48_entry_order"
   ],
   "note": "Operators of different sites commute, or anticommute if both names start with C; exact scalars."
  },
  {
   "property": "C49",
   "status": "proved",
   "theorems": [
    "Verif.AutoMPO.C49_coefficients",
    "Verif.AutoMPO.C49_program",
    "Verif.AutoMPO.C49_no_operator",
    "Verif.AutoMPO.C49_no_site"
   ],
   "note": "Statements with at least one operator; others end with an error (proved). Exact scalars: the code keeps terms whose coefficients cancel, as does the model."
  },
  {
   "property": "C50",
   "status": "partial",
   "theorems": [
    "Verif.AutoMPO.C50_exact_partial",
    "Verif.AutoMPO.C50_exact_noqn_partial",
    "Verif.AutoMPO.C50_program_partial",
    "Verif.AutoMPO.C50_on_site_counterexample",
    "Verif.AutoMPO.C50_site_zero_counterexample",
    "Verif.AutoMPO.C50_sort_counterexample"
   ],
   "note": "One operator, or two operators on different sites. False with two operators on one site, for an operator on site 0, and if the sort of a basis moves HL (counterexamples)."
  },
  {
   "property": "C51",
   "status": "partial",
   "theorems": [
    "Verif.AutoMPO.C51_local_operators",
    "Verif.AutoMPO.C51_entered",
    "Verif.AutoMPO.C51_exact_partial",
    "Verif.AutoMPO.C51_exact_chain_partial",
    "Verif.AutoMPO.C51_exact_counterexample"
   ],
   "note": "Local operators of the default conversion: in full for chains of Fermion, Electron and tJ sites, except operators given as products of names and mixtures of C with hard-core A operators. Exact conversion: signs are wrong for pairs such as Cup, Cdagdn (counterexample)."
  },
  {
   "property": "C52",
   "status": "proved",
   "theorems": [
    "Verif.Misc.C52_gate",
    "Verif.Misc.C52_swap",
    "Verif.Misc.C52_swap_counterexample"
   ],
   "note": "Exact arithmetic."
  },
  {
   "property": "C53",
   "status": "proved",
   "theorems": [
    "Verif.Lattice.C53_square",
    "Verif.Lattice.C53_triangular",
    "Verif.Lattice.C53_next",
    "Verif.Lattice.C53_empty",
    "Verif.Lattice.C53_coords_counterexample"
   ],
   "note": "Site pairs; the recorded coordinates of periodic bonds are wrong (counterexample)."
  },
  {
   "property": "C54",
   "status": "proved",
   "theorems": [
    "Verif.Misc.C54_wrap",
    "Verif.Misc.C54_zero"
   ],
   "note": ""
  },
  {
   "property": "C55",
   "status": "proved",
   "theorems": [
    "Verif.Misc.C55_product",
    "Verif.Misc.C55_fails"
   ],
   "note": ""
  },
  {
   "property": "C56",
   "status": "proved",
   "theorems": [
    "Verif.MPS.C56_inner",
    "Verif.MPS.C56_inner_length",
    "Verif.MPS.C56_op",
    "Verif.MPS.C56_AxBy_counterexample",
    "Verif.MPS.C56_match_counterexample"
   ],
   "note": "Dense storage without quantum numbers, no scale factors, tensors of at most d^3 (d^4) elements representable. inner(A,x,B,y), which the property does not name, is wrong on one site and ignores its site matching (counterexamples)."
  },
  {
   "property": "C57",
   "status": "proved",
   "theorems": [
    "Verif.Tensor.C57_isContiguous",
    "Verif.Tensor.C57_slices",
    "Verif.Tensor.C57_isContiguous_counterexample"
   ],
   "note": "For arbitrary strides the test is wrong; a counterexample is proved."
  },
  {
   "property": "C58",
   "status": "partial",
   "theorems": [
    "Verif.Tensor.C58_subTensor",
    "Verif.Tensor.C58_subIndex",
    "Verif.Tensor.C58_groupInds_partial",
    "Verif.Tensor.C58_groupInds_counterexample"
   ],
   "note": "groupInds is proved for column-major ranges; for other contiguous ranges (transposed views) it is wrong, counterexample proved."
  },
  {
   "property": "C59",
   "status": "proved",
   "theorems": [
    "Verif.QDense.C59_removeQNs",
    "Verif.DiagOps.C59_diag"
   ],
   "note": "Block-sparse storage with at least one index, and diagonal storage."
  },
  {
   "property": "C60",
   "status": "proved",
   "theorems": [
    "Verif.Net.C60_product",
    "Verif.Net.C60_network"
   ],
   "note": "Dense storage, no scale factors."
  },
  {
   "property": "C61",
   "status": "proved",
   "theorems": [
    "Verif.Net.C61_network",
    "Verif.Net.C61_order",
    "Verif.Net.C61_itensors",
    "Verif.Net.C61_three_counterexample"
   ],
   "note": "With an index on three tensors the order matters (counterexample showing the hypothesis is needed)."
  },
  {
   "property": "C62",
   "status": "proved",
   "theorems": [
    "Verif.Dmrg.C62_dmrg"
   ],
   "note": "The eigensolver and the factorization are arbitrary; two centre sites, no boundary tensors."
  },
  {
   "property": "C63",
   "status": "proved",
   "theorems": [
    "Verif.Limits.C63_gauge"
   ],
   "note": "Factorizations are given by their specification; tensors of neighbouring sites have a link index in common."
  },
  {
   "property": "C64",
   "status": "partial",
   "theorems": [
    "Verif.Net.C64_sum_partial",
    "Verif.Net.C64_mismatch",
    "Verif.Net.C64_operators_partial",
    "Verif.Net.C64_default",
    "Verif.Net.C64_delta_counterexample"
   ],
   "note": "Dense with dense and diagonal with diagonal storage; sums with a delta tensor and of dense and diagonal tensors are errors in the code (counterexample). Block-sparse sums are C23."
  },
  {
   "property": "C65",
   "status": "partial",
   "theorems": [
    "Verif.AutoMPO.C65_operator_partial",
    "Verif.AutoMPO.C65_program_partial",
    "Verif.AutoMPO.C65_svd_partial",
    "Verif.AutoMPO.keeps_of_svd",
    "Verif.AutoMPO.C65_odd_counterexample",
    "Verif.AutoMPO.C65_small_counterexample",
    "Verif.AutoMPO.C65_names_counterexample"
   ],
   "note": "Any terms with an even number of fermionic operators and no flux. False for an odd number, for coefficients below 1E-14 (dropped whatever the scale of the others) and for names which the rewriting makes the same (counterexamples). Exact scalars; singular value decompositions by their specification."
  },
  {
   "property": "C66",
   "status": "partial",
   "theorems": [
    "Verif.DiagOps.C66_diag_partial",
    "Verif.DiagOps.C66_qdiag_partial",
    "Verif.DiagOps.C66_complex_counterexample",
    "Verif.DiagOps.C66_apply_counterexample",
    "Verif.DiagOps.C66_generate_counterexample",
    "Verif.DiagOps.C66_scalar_counterexample"
   ],
   "note": "Sequences without the operations for which it is false: with quantum numbers a complex factor on real stored elements (undefined behaviour), apply with a change of type on a single value, generate with a change of type, reading a tensor without indices (counterexamples). realPart, imagPart and fill do not exist for diagonal storage with quantum numbers."
  },
  {
   "property": "C67",
   "status": "partial",
   "theorems": [
    "Verif.QDense.C67_toDense_partial",
    "Verif.QDense.C67_sectors_counterexample"
   ],
   "note": "At least one index, all indices with the same sector sizes and equal flux of the diagonal blocks. False when the indices are split into sectors differently (counterexample)."
  },
  {
   "property": "C68",
   "status": "partial",
   "theorems": [
    "Verif.Svd.C68_exact",
    "Verif.Svd.C68_truncated_partial",
    "Verif.Svd.C68_equal_counterexample"
   ],
   "note": "Without truncation the claim is proved for matrices whose indices have sectors with different quantum numbers (as combining gives them); false otherwise. With truncation: where the selection in the blocks agrees with truncate (see C37) and something is kept (see C36)."
  },
  {
   "property": "C69",
   "status": "partial",
   "theorems": [
    "Verif.Solvers.C69_ground",
    "Verif.Solvers.C69_several_partial",
    "Verif.Solvers.C69_targets_counterexample",
    "Verif.Solvers.C69_nan_counterexample",
    "Verif.Solvers.C69_minimal_counterexample"
   ],
   "note": "One state: in full. Several states: every number returned is the energy of its vector, but values can be missing: asking for more states than iterations + 1 reads beyond the end of an array, and when the space is exhausted just after a state has converged the next value is NaN (counterexamples). The value returned need not be the smallest eigenvalue, as the comment on the function says (counterexample). Exact numbers."
  },
  {
   "property": "C70",
   "status": "partial",
   "theorems": [
    "Verif.Solvers.C70_residual_partial",
    "Verif.Solvers.C70_solves_partial",
    "Verif.Solvers.C70_complex_counterexample",
    "Verif.Solvers.C70_singular_counterexample",
    "Verif.Solvers.C70_restart_counterexample"
   ],
   "note": "Real numbers: in full for positive tolerance and RestartIter. Complex numbers: false already in one dimension, because dot(w,v) conjugates the coefficient and the rotations are not unitary (counterexample; the residual grows). Singular matrices can give a division by zero, RestartIter=0 an endless loop (counterexamples). Exact numbers."
  },
  {
   "property": "C71",
   "status": "partial",
   "theorems": [
    "Verif.Expo.C71_accuracy_partial",
    "Verif.Expo.C71_default_partial",
    "Verif.Expo.C71_zero_counterexample"
   ],
   "note": "In full for every matrix which is not zero, in exact numbers: no error is thrown, the linear equation is solvable, and the error bound is explicit for every degree. For the zero matrix the code converts minus infinity to an int (counterexample). Rounding is not modelled."
  },
  {
   "property": "C72",
   "status": "partial",
   "theorems": [
    "Verif.Expo.C72_error_partial",
    "Verif.Expo.C72_norm_partial",
    "Verif.Expo.C72_exhaust_partial",
    "Verif.Expo.C72_tolerance_counterexample",
    "Verif.Expo.C72_maxiter_counterexample",
    "Verif.Expo.C72_null_counterexample"
   ],
   "note": "Proved with expMatrix as modelled for C71: explicit bounds of the error through the number of iterations done, the cutoff and the error of expMatrix; with no tolerance and as many iterations as dimensions only the latter two remain, and the norm is kept for imaginary tau. That the error is below the tolerance is false: the estimate can vanish while the error is of order one (counterexample). MaxIter=1 returns phi unchanged without warning, and H*phi=0 takes the exponential of the zero matrix (counterexamples). Exact numbers."
  },
  {
   "property": "C73",
   "status": "partial",
   "theorems": [
    "Verif.DmrgNum.C73_variational_partial",
    "Verif.DmrgNum.C73_monotone_partial",
    "Verif.DmrgNum.C73_two_sites_counterexample"
   ],
   "note": "In full for three or more sites, real or complex, with exact numbers: davidson as modelled for C69, any correct diagonalization of small matrices, any factorization that gives an orthogonal tensor and a product of norm 1, truncating or not (with or without noise). With two sites every calculation ends with the error LocalOp is null (counterexample). Quantum numbers and products of several operators (LocalMPOSet) are left out."
  },
  {
   "property": "C74",
   "status": "partial",
   "theorems": [
    "Verif.TEvol.C74_gates_partial",
    "Verif.TEvol.C74_normalized_partial",
    "Verif.TEvol.C74_repeat_counterexample",
    "Verif.TEvol.C74_negative_counterexample",
    "Verif.TEvol.C74_norm_counterexample"
   ],
   "note": "In full for up to 10^9 steps and lists of gates which can be repeated. The centre is not moved back before the next step, so with other lists (such as bonds 2, 3, 1) the second step ends with an error; a negative time with a positive step does nothing; the number returned is the norm of the evolved state times that of the initial one (counterexamples). Exact numbers, no quantum numbers; gates on sites which are not neighbours are not modelled."
  },
  {
   "property": "C75",
   "status": "partial",
   "theorems": [
    "Verif.ApplyMPO.C75_cutoff_partial",
    "Verif.ApplyMPO.C75_exact_partial",
    "Verif.ApplyMPO.C75_best_partial",
    "Verif.ApplyMPO.C75_normalize_partial",
    "Verif.ApplyMPO.C75_one_site_counterexample",
    "Verif.ApplyMPO.C75_degenerate_counterexample"
   ],
   "note": "In full for two or more sites without MaxDim, and with MaxDim when RespectDegenerate is false, for every correct diagonalization of a Hermitian matrix. With one site there is always an error, and with RespectDegenerate, the default, a MaxDim which divides states of equal weight gives the zero vector or an error (counterexamples). Exact numbers, no quantum numbers."
  },
  {
   "property": "C76",
   "status": "partial",
   "theorems": [
    "Verif.Orthog.C76_cutoff_partial",
    "Verif.Orthog.C76_exact_partial",
    "Verif.Orthog.C76_best_partial",
    "Verif.Orthog.C76_one_site_counterexample",
    "Verif.Orthog.C76_degenerate_counterexample"
   ],
   "note": "In full for two or more sites without MaxDim, and with MaxDim when RespectDegenerate is false, for every correct diagonalization of a Hermitian matrix; through a proof that orthogonalize does what applyMPO with the identity does. With one site there is always an error, and with RespectDegenerate, the default, a MaxDim which divides states of equal weight gives the zero vector or an error (counterexamples). Exact numbers, no quantum numbers."
  },
  {
   "property": "C77",
   "status": "partial",
   "theorems": [
    "Verif.Arnoldi.C77_pairs_partial",
    "Verif.Arnoldi.C77_one_partial",
    "Verif.Arnoldi.C77_second_partial",
    "Verif.Arnoldi.C77_deflation_counterexample",
    "Verif.Arnoldi.C77_smallest_counterexample",
    "Verif.Arnoldi.C77_one_dim_counterexample"
   ],
   "note": "One vector and at least two dimensions: in full. Several vectors: each pair is one of the operator with the pairs before it subtracted; for two vectors of a normal operator the bounds for A itself are proved. False for a second vector when A is not normal, or with SmallestReal, where the removed pair comes back with value zero; in one dimension the complex conjugate is returned (counterexamples). Exact numbers, Npass at least 1, ErrGoal positive."
  },
  {
   "property": "C78",
   "status": "partial",
   "theorems": [
    "Verif.Svd.C78_diag",
    "Verif.Svd.C78_truncated_partial",
    "Verif.Svd.C78_exp_partial",
    "Verif.Svd.C78_absent_counterexample"
   ],
   "note": "Decomposition without truncation: in full, for every correct diagonalization of the blocks; U is unitary if every diagonal block is stored. Truncated: unless the selection disagrees with truncate (C37) or nothing is kept (C36). The exponential is right if every diagonal block is stored and wrong, for every t, if one is not (counterexample). Exact numbers; the product in expHermitian is taken element by element; combining the indices of a tensor with more of them is C27."
  },
  {
   "property": "C79",
   "status": "partial",
   "theorems": [
    "Verif.SumNum.C79_two_partial",
    "Verif.SumNum.C79_many_partial",
    "Verif.SumNum.C79_exact_partial",
    "Verif.SumNum.C79_best_partial",
    "Verif.SumNum.C79_cutoff_counterexample",
    "Verif.SumNum.C79_one_site_counterexample"
   ],
   "note": "In full for two or more sites and terms which have a centre: an explicit bound for two terms and for a tree of any number of terms. A term without a centre is first orthogonalized with the default cutoff 1E-13 whatever the arguments are, which is part of the bound; so a sum with Cutoff zero is not exact (counterexample). With one site there is always an error (counterexample). Exact numbers, no quantum numbers."
  },
  {
   "property": "C80",
   "status": "partial",
   "theorems": [
    "Verif.Sites.C80_flux",
    "Verif.Sites.C80_custom",
    "Verif.Sites.C80_custom_state",
    "Verif.Sites.C80_custom_arg",
    "Verif.Sites.C80_raise",
    "Verif.Sites.C80_boson",
    "Verif.Sites.C80_half",
    "Verif.Sites.C80_one",
    "Verif.Sites.C80_one_x",
    "Verif.Sites.C80_states",
    "Verif.Sites.C80_fermion",
    "Verif.Sites.C80_electron",
    "Verif.Sites.C80_z3",
    "Verif.Sites.C80_two_partial",
    "Verif.Sites.C80_tj_partial",
    "Verif.Sites.C80_s2_counterexample",
    "Verif.Sites.C80_tj_sx_counterexample"
   ],
   "note": "In full but for two operators which are wrong: S2 of SpinTwo sets the element of the lowest state in the wrong place (and throws with quantum numbers), Sx of tJ is twice (S+ + S-)/2 (counterexamples). Exact numbers."
  },
  {
   "property": "C81",
   "status": "partial",
   "theorems": [
    "Verif.AutoMPO.C81_sets_partial",
    "Verif.AutoMPO.C81_order_partial",
    "Verif.AutoMPO.C81_on_site_counterexample"
   ],
   "note": "In full for terms of one operator or two operators on different sites, whatever the sort of the bases. A term with two operators on one site loses the second and counts twice (counterexample). Element by element, exact numbers; errors of operators that do not match the quantum numbers of the links are left out."
  },
  {
   "property": "C82",
   "status": "partial",
   "theorems": [
    "Verif.QDense.C82_program_partial",
    "Verif.QDense.C82_set",
    "Verif.QDense.C82_set_first",
    "Verif.QDense.C82_add",
    "Verif.QDense.C82_mul",
    "Verif.QDense.C82_dag",
    "Verif.QDense.C82_vector_counterexample",
    "Verif.QDense.C82_no_blocks_counterexample"
   ],
   "note": "In full for every program that does not call set with a vector. set with a vector of values has no check and leaves elements of different fluxes; a tensor without blocks counts as having flux zero, so setting an element or adding a tensor of another flux throws although the sum the other way round works (counterexamples). One type of elements; storage is block-sparse; order-0 set is left out."
  },
  {
   "property": "C83",
   "status": "partial",
   "theorems": [
    "Verif.Input.C83_string",
    "Verif.Input.C83_yesno",
    "Verif.Input.C83_int",
    "Verif.Input.C83_absent",
    "Verif.Input.C83_no_group",
    "Verif.Input.C83_rounds",
    "Verif.Input.C83_newline_counterexample",
    "Verif.Input.C83_parent_counterexample",
    "Verif.Input.C83_bracket_counterexample",
    "Verif.Input.C83_comma_counterexample",
    "Verif.Input.C83_long_word_counterexample"
   ],
   "note": "In full for files in which every line ends with a line break, the closing bracket of a group does not stand on the line of an item, and words are shorter than 512 characters. Otherwise: a missing group in a file without a final line break reads an uninitialized character for ever; a group after the end of its parent is taken for one inside it; items after a closing bracket on the line of an item are found; a word before a comma includes the comma; a word of 512 letters overruns the buffer (counterexamples). getReal and getLong are not modelled."
  },
  {
   "property": "C84",
   "status": "partial",
   "theorems": [
    "Verif.Input.C84_table_partial",
    "Verif.Input.C84_column_counterexample",
    "Verif.Input.C84_empty_counterexample"
   ],
   "note": "In full for tables with a line of headings and at least one row, every row having five columns and a maxdim that is not zero. With a missing column the numbers of the next row are taken, without rows every sweep has bond dimension zero, both without an error (counterexamples). How a real number is read is a parameter."
  },
  {
   "property": "C85",
   "status": "partial",
   "theorems": [
    "Verif.FitApply.C85_best_partial",
    "Verif.FitApply.C85_monotone_partial",
    "Verif.FitApply.C85_stuck_counterexample",
    "Verif.FitApply.C85_one_site_counterexample"
   ],
   "note": "Two sites in the centre (the default), two or more sites, Normalize and Noise off: everything but the last part in full, for every factorization that projects. The last part is false: from an initial state orthogonal to K*x (such as x itself) a product state is never found, whatever the number of sweeps. With one site the environments are read outside of their vector (counterexamples). Exact numbers, no quantum numbers."
  },
  {
   "property": "C86",
   "status": "partial",
   "theorems": [
    "Verif.FitOne.C86_best_partial",
    "Verif.FitOne.C86_monotone_partial",
    "Verif.FitOne.C86_links_partial",
    "Verif.FitOne.C86_single",
    "Verif.FitOne.C86_reach_counterexample"
   ],
   "note": "Normalize off: everything but the last part in full, for every singular value decomposition with or without truncation. The last part is false: as links cannot grow, from a product state an entangled K*x is never found, whatever the number of sweeps (counterexample). Exact numbers, no quantum numbers."
  },
  {
   "property": "C87",
   "status": "partial",
   "theorems": [
    "Verif.Integrators.C87_rk4_partial",
    "Verif.Integrators.C87_midpoint_partial",
    "Verif.Integrators.C87_cubic",
    "Verif.Integrators.C87_short",
    "Verif.Integrators.C87_hole_counterexample"
   ],
   "note": "In full for linear derivatives. For derivatives that are not linear rungeKutta4 is proved exact for a family of equations whose solutions are polynomials of degree four, which covers every order condition; that the error is of fifth order for all smooth derivatives is not proved. A default constructed element before the last tensor makes both functions follow a null pointer (counterexample). Exact numbers."
  },
  {
   "property": "C88",
   "status": "partial",
   "theorems": [
    "Verif.Observer.C88_stop_partial",
    "Verif.Observer.C88_report",
    "Verif.Observer.C88_all",
    "Verif.Observer.C88_files_partial",
    "Verif.Observer.C88_entropy",
    "Verif.Observer.C88_odd_counterexample",
    "Verif.Observer.C88_both_counterexample",
    "Verif.Observer.C88_zero_counterexample",
    "Verif.Observer.C88_uninit_counterexample",
    "Verif.Observer.C88_left_counterexample"
   ],
   "note": "The number of sweeps is determined exactly, for every history. It is not as claimed in full: the goals are looked at after sweeps of even number only; with both goals both have to be met; with EntropyErrgoal zero the goal for the energy is ignored; with PrintEigs off or Silent the entropy is not initialized; a file STOP_DMRG found together with a goal stays and stops the next calculation (counterexamples). The rest in full. Exact numbers; an empty spectrum is left out."
  },
  {
   "property": "C89",
   "status": "partial",
   "theorems": [
    "Verif.Views.C89_views",
    "Verif.Views.C89_elements",
    "Verif.Views.C89_subVector",
    "Verif.Views.C89_vector_partial",
    "Verif.Views.C89_matrix_partial",
    "Verif.Views.C89_scale",
    "Verif.Views.C89_copy",
    "Verif.Views.C89_dot",
    "Verif.Views.C89_gemv_partial",
    "Verif.Views.C89_new_partial",
    "Verif.Views.C89_piece_counterexample",
    "Verif.Views.C89_tall_counterexample",
    "Verif.Views.C89_fromleft_counterexample",
    "Verif.Views.C89_self_counterexample",
    "Verif.Views.C89_subVector_counterexample",
    "Verif.Views.C89_makeVecRefc_counterexample",
    "Verif.Views.C89_empty_counterexample",
    "Verif.Views.C89_overlap_counterexample"
   ],
   "note": "In-place arithmetic, dot products and copies: in full, for all strides. Matrix-vector products: for contiguous matrices with at least one element. False: a piece of a larger matrix times a vector is wrong without DEBUG; mult(M,x,fromleft) writes past its result for a tall matrix and ignores fromleft; subVector of a strided vector and makeVecRefc ignore the stride; M = transpose(M) spoils M (counterexamples). Exact numbers; BLAS by its documentation."
  },
  {
   "property": "C90",
   "status": "partial",
   "theorems": [
    "Verif.DmrgNum.C90_set_partial",
    "Verif.DmrgNum.C90_excited_partial",
    "Verif.DmrgNum.C90_orthogonal_partial",
    "Verif.DmrgNum.C90_weight_counterexample",
    "Verif.DmrgNum.C90_two_sites_counterexample",
    "Verif.DmrgNum.C90_empty_counterexample"
   ],
   "note": "Three or more sites, Hermitian operators, at least one operator, Noise off, two centre sites: everything but the last part in full, for every eigensolver step that does not raise the energy. The last part is false: with a weight below the gap (the default is 1) no number of sweeps gives an orthogonal state, and the energy returned includes the penalty. With two sites every calculation throws; with an empty set the first of no operators is used (counterexamples). Exact numbers, no quantum numbers."
  },
  {
   "property": "C91",
   "status": "partial",
   "theorems": [
    "Verif.Correl.C91_matrix_partial",
    "Verif.Correl.C91_orthogonalize_partial",
    "Verif.Correl.C91_detect_partial",
    "Verif.Correl.C91_mixed",
    "Verif.Correl.C91_same_counterexample",
    "Verif.Correl.C91_same_complex_counterexample"
   ],
   "note": "Every element is the expectation value of the product of the two operators with their Jordan-Wigner strings, in either order of the sites; a state without a centre is replaced by one within the cutoff of orthogonalize. When the matrix is taken as Hermitian the operators have to be conjugates: this is detected correctly if the names differ. Two operators with the same name are always taken to give a Hermitian matrix, which is false: a fermionic operator with itself gets the wrong sign, a bosonic one the conjugate of the number (counterexamples). Missing: rounding, ranges past the ends, sites of different kind in the detection."
  },
  {
   "property": "C92",
   "status": "partial",
   "theorems": [
    "Verif.Correl.C92_expect_partial",
    "Verif.Correl.C92_orthogonalize_partial",
    "Verif.Correl.C92_range_partial",
    "Verif.Correl.C92_small_counterexample"
   ],
   "note": "All values for any list or range of sites; a state without a centre is replaced by one within the cutoff of orthogonalize. A state with norm below 1E-20 is refused (counterexample). Missing: rounding."
  },
  {
   "property": "C93",
   "status": "proved",
   "theorems": [
    "Verif.SvdRef.C93_svd",
    "Verif.SvdRef.C93_values",
    "Verif.SvdRef.C93_returns",
    "Verif.SvdRef.C93_refused",
    "Verif.SvdRef.C93_qr",
    "Verif.SvdRef.C93_eig",
    "Verif.SvdRef.C93_orthog",
    "Verif.SvdRef.C93_lapack"
   ],
   "note": "In exact arithmetic, for every LAPACK that keeps its documented promises (hypotheses, shown to be satisfiable)."
  },
  {
   "property": "C94",
   "status": "partial",
   "theorems": [
    "Verif.Layout.C94_eig",
    "Verif.Layout.C94_qr_partial",
    "Verif.Layout.C94_svd_partial",
    "Verif.Layout.C94_general_partial",
    "Verif.Layout.C94_lapack",
    "Verif.Layout.C94_fallback_counterexample",
    "Verif.Layout.C94_strided_counterexample",
    "Verif.Layout.C94_qr_counterexample",
    "Verif.Layout.C94_general_counterexample",
    "Verif.Layout.C94_left_counterexample"
   ],
   "note": "diagHermitian: in full, any strides. QR: any strides, if R is empty before the call. SVD: contiguous or transposed views, without the second attempt on a transposed matrix. General matrices: stored by columns. The rest is false: numbers left in R stay below the diagonal; the SVD of a piece of a larger matrix decomposes other numbers; the fallback to gesvd reads behind a transposed matrix; eigenvectors of a transposed general matrix are wrong; left eigenvectors always end in an error (counterexamples)."
  },
  {
   "property": "C95",
   "status": "partial",
   "theorems": [
    "Verif.QrQN.C95_qr_partial",
    "Verif.QrQN.C95_upper_partial",
    "Verif.QrQN.C95_returns_partial",
    "Verif.QrQN.C95_order",
    "Verif.QrQN.C95_order_counterexample",
    "Verif.QrQN.C95_complete_counterexample"
   ],
   "note": "With UpperTriangular (the default) the result is right whenever there is one, and there is one exactly if the permutation that sorts the blocks by column sector is its own inverse; for any other order of the sectors the code writes through a null pointer. With Complete and not UpperTriangular: in full if no block has more rows than columns, otherwise Q has zero columns and QR is not the matrix (counterexamples). Exact numbers."
  },
  {
   "property": "C96",
   "status": "partial",
   "theorems": [
    "Verif.SvdBond.C96_split_partial",
    "Verif.SvdBond.C96_normalized_partial",
    "Verif.SvdBond.C96_fit",
    "Verif.SvdBond.C96_gates",
    "Verif.SvdBond.C96_dmrg",
    "Verif.SvdBond.C96_tools",
    "Verif.SvdBond.C96_degenerate_counterexample",
    "Verif.SvdBond.C96_noise_counterexample",
    "Verif.SvdBond.C96_svd_counterexample"
   ],
   "note": "Orthogonality, projection, MaxDim and the cutoff are proved for all tensors without empty indices, both methods and any noise (the cutoff with the default options for the kind of cutoff and MaxDim that does not matter, in general compared with all factorizations of the rank when degeneracies need not be respected); the hypotheses about svdBond in C73, C74 and C85 are derived from it. False of the code: with RespectDegenerate (the default) nothing is kept if MaxDim separates equal values; with noise and MaxDim the state can be projected away; noise with UseSVD is an error (counterexamples). Exact numbers, no quantum numbers, UseOrigM and TraceReIm left out."
  },
  {
   "property": "C97",
   "status": "partial",
   "theorems": [
    "Verif.NMult.C97_product_partial",
    "Verif.NMult.C97_cutoff_counterexample",
    "Verif.NMult.C97_one_counterexample",
    "Verif.NMult.C97_lost_counterexample"
   ],
   "note": "Proved for all pairs of operators on two or more sites where the last bond is decomposed by svd: the result has its centre at site 1, is not longer than the product, is the product up to the cutoff 1E-13 of orthogonalize if nothing is discarded before, and with a cutoff c is within sqrt(((N-2)q+1)c) where q measures how far the tensors on the right are from orthogonal. The full claim is false: with a cutoff of 1E-12 or more (or noise) and without UseSVD every product ends with an error, so does one site, and with default options a product can be lost completely (the operator returned is zero although the product is not)."
  },
  {
   "property": "C98",
   "status": "partial",
   "theorems": [
    "Verif.Net.C98_directSum_partial",
    "Verif.Net.C98_vector_counterexample",
    "Verif.Net.C98_diag_counterexample"
   ],
   "note": "For dense tensors of which the first has at least two indices. For vectors the claim is false: the result has too short a storage, and reading the elements of the second vector reads beyond it; a diagonal first tensor ends with an error (counterexamples). Without quantum numbers."
  },
  {
   "property": "C99",
   "status": "partial",
   "theorems": [
    "Verif.Net.C99_ncprod_partial",
    "Verif.Net.C99_scalar_counterexample",
    "Verif.Net.C99_diag_counterexample",
    "Verif.Net.C99_qn_counterexample"
   ],
   "note": "For dense tensors that are not both without indices. Two tensors without indices step out of the bounds of a range, diagonal tensors end with an error, and with quantum numbers the flux of the result is computed from the wrong block and the product writes through a null pointer (counterexamples; the code for quantum numbers is modelled)."
  }
 ]
}