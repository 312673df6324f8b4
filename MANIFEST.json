{"claims": [
{"property": "C01", "status": "partial", "theorems": ["SyMPC.C01_scale_invariant", "SyMPC.C01_encode_decode_error", "SyMPC.C01_encode_odd", "SyMPC.C01_encode_monotone", "SyMPC.C01_float32_error"], "note": "exact on rationals; with the float32 arithmetic of torch the error is at most one quantum plus 2^-21 times the size of the number plus 2 (C01_float32_error), and no better bound by one quantum holds for large numbers (C02_float32_inexact)"},
{"property": "C02", "status": "partial", "theorems": ["SyMPC.C02_decode_exact", "SyMPC.C02_decode_int", "SyMPC.C02_decode_encode", "SyMPC.C02_decode_float", "SyMPC.C02_base_one_overflow", "SyMPC.C02_float32_partial", "SyMPC.C02_float32_inexact", "SyMPC.C02_float32_small_negative", "SyMPC.C02_float32_error"], "note": "on rationals for scales below 2^63; base 1 with a positive precision overflows at -2^63 (C02_base_one_overflow); in float32 exact for base 2 up to 24 bits, C02_float32_inexact and C02_float32_small_negative show the loss beyond; for every value, base and precision float32 is off by at most 2^-22 times the size plus 2 (C02_float32_error)"},
{"property": "C03", "status": "proved", "theorems": ["SyMPC.C03_distribute_decides", "SyMPC.C03_share_reconstruct", "SyMPC.C03_degenerate", "SyMPC.C03_mpctensor_reconstruct", "SyMPC.C03_no_shares", "SyMPC.C03_get_decoded"], "note": "any abelian group of share values, any number of parties from two on; the degenerate party counts are in C03_degenerate"},
{"property": "C04", "status": "partial", "theorems": ["SyMPC.C04_views_independent_partial", "SyMPC.C04_half_range_leaks"], "note": "proved for masks drawn from the whole ring; the code draws masks from half the ring and C04_half_range_leaks shows the claim is false for it"},
{"property": "C05", "status": "proved", "theorems": ["SyMPC.C05_przs_sum_zero", "SyMPC.C05_przs_sum_zero_additive"], "note": "any number of parties and any ring, generators as deterministic state machines"},
{"property": "C06", "status": "proved", "theorems": ["SyMPC.C06_prrs_consistent"], "note": ""},
{"property": "C07", "status": "partial", "theorems": ["SyMPC.C07_remote_secret_partial", "SyMPC.C07_outside_holder", "SyMPC.C07_shape_required", "SyMPC.C07_replicated_broken"], "note": "holds for additive sharing and a holder that is a party; an outside holder gives 0, a missing shape an error, and replicated sharing of remote secrets is broken (C07_outside_holder, C07_shape_required, C07_replicated_broken)"},
{"property": "C08", "status": "proved", "theorems": ["SyMPC.C08_replicated_roundtrip"], "note": "any number of parties, both security types, every ring with a RingSem"},
{"property": "C09", "status": "proved", "theorems": ["SyMPC.C09_malicious_opening_sound", "SyMPC.C09_rejection_is_value_error"], "note": ""},
{"property": "C10", "status": "proved", "theorems": ["SyMPC.C10_three_party_detects", "SyMPC.C10_four_parties_undetected"], "note": "three parties detect; C10_four_parties_undetected shows the limit of the guarantee"},
{"property": "C11", "status": "proved", "theorems": ["SyMPC.C11_private_linear_replicated", "SyMPC.C11_linear_programs_replicated", "SyMPC.C11_private_linear_additive", "SyMPC.C11_linear_programs", "SyMPC.C11_isub_additive"], "note": "additive and replicated sharing"},
{"property": "C12", "status": "proved", "theorems": ["SyMPC.C12_public_linear_additive"], "note": ""},
{"property": "C13", "status": "partial", "theorems": ["SyMPC.C13_prime_public_numbers", "SyMPC.C13_bit_public_numbers", "SyMPC.C13_bit_even_wrong", "SyMPC.C13_public_linear_replicated"], "note": "All rings, parties and encoded values (C13_public_linear_replicated); numbers in the prime ring (C13_prime_public_numbers). In the bit ring every public number of absolute value at least 1 counts as 1 (C13_bit_public_numbers), so even integers are wrong (C13_bit_even_wrong)."},
{"property": "C14", "status": "partial", "theorems": ["SyMPC.C14_rsub_two_partial", "SyMPC.C14_replicated_rsub_wrong", "SyMPC.C14_replicated_rsub_witness", "SyMPC.C14_share_rsub"], "note": "share level exact for additive sharing; the tensor-level public - secret of two parties is within one quantum when the products with the scale do not wrap (C14_rsub_two_partial); with replicated sharing the sign is wrong (C14_replicated_rsub_wrong)"},
{"property": "C15", "status": "proved", "theorems": ["SyMPC.C15_public_mul_replicated", "SyMPC.C15_public_product_additive"], "note": "bi-additive products (mul, matmul, conv2d) before truncation"},
{"property": "C16", "status": "partial", "theorems": ["SyMPC.C16_additive_map_replicated", "SyMPC.C16_reindex_replicated", "SyMPC.C16_sum_replicated", "SyMPC.C16_sum_bit_ring_wrong", "SyMPC.C16_sum_int32_wrong", "SyMPC.C16_additive_map", "SyMPC.C16_reindex", "SyMPC.C16_sum"], "note": "sum is exact in the ring of 2^64; in the other rings the result leaves the ring (C16_sum_bit_ring_wrong, C16_sum_int32_wrong)"},
{"property": "C17", "status": "partial", "theorems": ["SyMPC.C17_stack_partial", "SyMPC.C17_cat_partial", "SyMPC.C17_cat_dim_ignored", "SyMPC.C17_stack_dim_ignored", "SyMPC.C17_cat_dims", "SyMPC.C17_stack_dims", "SyMPC.C17_stack_shapes"], "note": "dimension 0 proved for all shapes and party counts; every other dimension is ignored by the shares (C17_cat_dim_ignored, C17_stack_dim_ignored)"},
{"property": "C18", "status": "proved", "theorems": ["SyMPC.C18_spdz_products", "SyMPC.C18_spdz_reconstruct"], "note": "For every number of parties of at least two (generate_shares rejects one)."},
{"property": "C19", "status": "partial", "theorems": ["SyMPC.C19_masks_hide_partial", "SyMPC.C19_half_range_leaks"], "note": "The half-range masks drawn by torch's random_() leak: C19_half_range_leaks; the hiding statement is proved for masks that range over the whole ring."},
{"property": "C20", "status": "proved", "theorems": ["SyMPC.C20_triples_used_once"], "note": ""},
{"property": "C21", "status": "proved", "theorems": ["SyMPC.C21_key_injective", "SyMPC.C21_store_is_queues"], "note": ""},
{"property": "C22", "status": "partial", "theorems": ["SyMPC.C22_check_partial", "SyMPC.C22_wrong_triple_accepted", "SyMPC.C22_single_element", "SyMPC.C22_generated", "SyMPC.C22_empty_rejected"], "note": "The claim is false for the code: (c != op(a, b)).all() raises only if every position is wrong (C22_check_partial gives the exact condition, C22_wrong_triple_accepted a wrong triple that passes). Proved: the check is exact for one element (C22_single_element), honest generation always yields a correct triple (C22_generated), and triples without elements are always rejected (C22_empty_rejected)."},
{"property": "C23", "status": "partial", "theorems": ["SyMPC.C23_conv_triples_partial", "SyMPC.C23_kwargs_not_in_key"], "note": "The store key does not contain the keyword arguments, so a triple made for other strides/paddings is served: C23_kwargs_not_in_key; proved when all calls use the same keyword arguments."},
{"property": "C24", "status": "proved", "theorems": ["SyMPC.C24_two_party_division"], "note": ""},
{"property": "C25", "status": "proved", "theorems": ["SyMPC.C25_two_party_products", "SyMPC.C25_fixed_point_product"], "note": "two parties; the histories of C18"},
{"property": "C26", "status": "partial", "theorems": ["SyMPC.C26_no_shares", "SyMPC.C26_count_wraps_partial", "SyMPC.C26_count_wraps_no_min_partial", "SyMPC.C26_min_pair_missed", "SyMPC.C26_count_wraps_error"], "note": "exact unless -2^63 is added to -2^63 (C26_min_pair_missed); C26_count_wraps_error gives the error in every case"},
{"property": "C27", "status": "partial", "theorems": ["SyMPC.C27_public_divide_integers_partial", "SyMPC.C27_public_divide_pow2_partial", "SyMPC.C27_float32_error", "SyMPC.C27_tensors_pow2_partial"], "note": "Integers for every divisor, binary fixed point for powers of two (the truncation after products), also for whole tensors (C27_tensors_pow2_partial); for other divisors the float32 correction is wrong (C27_float32_error)."},
{"property": "C28", "status": "partial", "theorems": ["SyMPC.C28_programs_on_values_partial", "SyMPC.C28_three_parties_partial", "SyMPC.C28_operand_changed", "SyMPC.C28_alias_changed", "SyMPC.C28_result_changed"], "note": "two parties and division-free programs proved (programs on a heap of share objects behave as on values); with three or more parties the operand, tensors aliasing it and earlier results change (C28_operand_changed, C28_alias_changed, C28_result_changed)"},
{"property": "C29", "status": "proved", "theorems": ["SyMPC.C29_product", "SyMPC.C29_mul", "SyMPC.C29_bit", "SyMPC.C29_pow", "SyMPC.C29_prime", "SyMPC.C29_matmul"], "note": "For every bi-additive operation and ring (C29_product), and for the bit ring, the prime ring, the rings 2**w (element-wise and matrix product) at the level of the opened result."},
{"property": "C30", "status": "proved", "theorems": ["SyMPC.C30_honest", "SyMPC.C30_same_shares", "SyMPC.C30_runs"], "note": "Single products, share-by-share agreement with the semi-honest protocol (also for scaled tensors), and whole runs from empty stores with triples generated on demand. Results must have at least one element (see C22_empty_rejected)."},
{"property": "C31", "status": "proved", "theorems": ["SyMPC.C31_verification", "SyMPC.C31_tampered"], "note": "Exact condition of acceptance for consistent sharings; tampered product shares raise."},
{"property": "C32", "status": "proved", "theorems": ["SyMPC.C32_wraps_count", "SyMPC.C32_product_wraps_rare", "SyMPC.C32_refused", "SyMPC.C32_truncate", "SyMPC.C32_truncate_base2", "SyMPC.C32_wraps_iff", "SyMPC.C32_wrap_witness", "SyMPC.C32_product"], "note": "Rings 2**8 to 2**64, all masks, all configurations whose scale fits; C32_wraps_iff says exactly for which first shares the condition holds, C32_wrap_witness that it is needed, C32_wraps_count and C32_product_wraps_rare how many of the random numbers violate it. Also for x * y of scaled secrets."},
{"property": "C33", "status": "proved", "theorems": ["SyMPC.C33_injection", "SyMPC.C33_not_a_bit"], "note": "bit_injection into any supported ring, for tensors of any shape; a tensor outside the bit ring is refused."},
{"property": "C34", "status": "proved", "theorems": ["SyMPC.C34_decomposition", "SyMPC.C34_refused", "SyMPC.C34_ttp"], "note": "bit_decomposition and bit_decomposition_ttp for every ring width; proofs by induction over the carry chain."},
{"property": "C35", "status": "partial", "theorems": ["SyMPC.C35_compare_partial", "SyMPC.C35_empty", "SyMPC.C35_decomposed_partial", "SyMPC.C35_depends_on_draw"], "note": "private_compare is correct for x != r for every draw; for x == r the result is the complement of the drawn bit, so the claim fails there (C35_depends_on_draw)."},
{"property": "C36", "status": "proved", "theorems": ["SyMPC.C36_select", "SyMPC.C36_selector_ring"], "note": "select_shares element by element for every ring, shape, scale and draw."},
{"property": "C37", "status": "proved", "theorems": ["SyMPC.C37_prime_ring_ops", "SyMPC.C37_noncanonical_counterexample", "SyMPC.C37_rings_implemented", "SyMPC.C37_getOp_total", "SyMPC.C37_ring_type"], "note": "for canonical residues, which is all the ring ever holds; C37_noncanonical_counterexample shows the need"},
{"property": "C38", "status": "partial", "theorems": ["SyMPC.C38_only_two_parties", "SyMPC.C38_eq_partial", "SyMPC.C38_eq_near_partial", "SyMPC.C38_eq_far_wrong", "SyMPC.C38_le_partial", "SyMPC.C38_le_signed_partial", "SyMPC.C38_le_unsigned_partial", "SyMPC.C38_le_unsigned_wrong_masks", "SyMPC.C38_min_output_wrong"], "note": "Two-party sessions, 32-bit function secret sharing with correct keys (assumption on the sycret library): equality is exact modulo 2^32, comparison is exact for differences in the range of the key; far secrets, unsigned keys and minimal outputs are proved to go wrong."},
{"property": "C39", "status": "partial", "theorems": ["SyMPC.C39_ge", "SyMPC.C39_lt", "SyMPC.C39_gt", "SyMPC.C39_trichotomy", "SyMPC.C39_lt_wrong_base3", "SyMPC.C39_ne_partial", "SyMPC.C39_ne_exact", "SyMPC.C39_fss_correct", "SyMPC.C39_fss_ne", "SyMPC.C39_only_two_parties", "SyMPC.C39_fss_ne_wrong"], "note": "ge, lt, gt and their trichotomy for every protocol that compares correctly, base 2 and base 10 quanta; function secret sharing is such a protocol for secrets less than 2^31 quanta apart (C39_fss_correct); ne exact with function secret sharing unless the first output is -2^31 + 1 (C39_fss_ne, C39_fss_ne_wrong); with more than two parties all raise ValueError (C39_only_two_parties); base 3 is proved to go wrong"},
{"property": "C40", "status": "proved", "theorems": ["SyMPC.C40_sort_session", "SyMPC.C40_sort_integers", "SyMPC.C40_sort", "SyMPC.C40_sort_exact", "SyMPC.C40_wrong_shape"], "note": "C40_sort: for any sound operators the result is a permutation of the inputs up to the rounding of the products, in order up to that rounding; exact when products are exact. C40_sort_session instantiates this with the modelled two-party operators (Beaver products, function secret sharing comparisons), apart from the two recorded events (share addition leaving the ring, key output -2^31). The caller's list is sorted in place. A wrong shape raises ValueError."},
{"property": "C41", "status": "partial", "theorems": ["SyMPC.C41_argmax_session_partial", "SyMPC.C41_max_integers_partial", "SyMPC.C41_ties_wrong", "SyMPC.C41_max_ties_wrong", "SyMPC.C41_shape_wrong", "SyMPC.C41_argmax_dim_partial", "SyMPC.C41_max_dim_partial", "SyMPC.C41_argmax_partial", "SyMPC.C41_max_counts", "SyMPC.C41_max_partial", "SyMPC.C41_fibres"], "note": "For a unique maximum (per fibre, or of a vector without dim): argmax is its index and max its value, each up to one rounding error per element, no exception; over any sound operators and for the two-party session (exact with precision 0). C41_max_counts: max() is the maximum times its multiplicity. The full claim is false: C41_ties_wrong, C41_max_ties_wrong (ties) and C41_shape_wrong (argmax of a column without dim; C85 treats all shapes)."},
{"property": "C42", "status": "partial", "theorems": ["SyMPC.C42_replicated_partial", "SyMPC.C42_negative", "SyMPC.C42_zero_not_secret", "SyMPC.C42_power_sound", "SyMPC.C42_power_session", "SyMPC.C42_power_integers", "SyMPC.Scaled.C42_replicated_scaled"], "note": "Replicated sharing: exact for positive exponents of unscaled tensors; scaled tensors (both security types) within C^n((1+2/scale)^n-1) unless a product wraps (C42_replicated_scaled). Two-party sessions: exact for integers, within C^p((1+2/scale)^p-1) for scaled numbers up to C. x ** 0 is the Python int 1 rather than a secret (C42_zero_not_secret). Missing: only the exponent 0, where the claim is false."},
{"property": "C43", "status": "proved", "theorems": ["SyMPC.C43_schedule_independent", "SyMPC.C43_can_finish", "SyMPC.C43_refused", "SyMPC.C43_sequential_reading"], "note": "all schedules of the atomic steps of the workers, states of the parties included; refused inputs in C43_refused"},
{"property": "C44", "status": "proved", "theorems": ["SyMPC.C44_replicated_mixing_refused", "SyMPC.C44_mixing_refused", "SyMPC.C44_public_route", "SyMPC.C44_same_session", "SyMPC.C44_shares_of_different_sessions"], "note": ""},
{"property": "C45", "status": "proved", "theorems": ["SyMPC.RProgram.C45_before_setup_replicated", "SyMPC.C45_remote_before_setup_replicated", "SyMPC.C45_session_guards", "SyMPC.C45_before_setup", "SyMPC.C45_setup_ready"], "note": ""},
{"property": "C46", "status": "partial", "theorems": ["SyMPC.C46_first_setup_partial", "SyMPC.C46_second_setup_fails"], "note": "first setup proved; a second setup fails (C46_second_setup_fails)"},
{"property": "C47", "status": "partial", "theorems": ["SyMPC.C47_parties_partial", "SyMPC.C47_history_dependent", "SyMPC.C47_poisoned_session", "SyMPC.C47_accepted"], "note": "holds for calls without keyword arguments; C47_history_dependent and C47_poisoned_session are the counterexamples"},
{"property": "C48", "status": "partial", "theorems": ["SyMPC.Autograd.C48_record", "SyMPC.Autograd.C48_traversal", "SyMPC.Grad.C48_gradients_partial", "SyMPC.Grad.C48_leaf_stops_recording", "SyMPC.Grad.C48_used_loss_sends_nothing", "SyMPC.Grad.C48_refused_loss_stops_recording", "SyMPC.Grad.C48_failed_operation_stops_recording", "SyMPC.Grad.C48_square", "SyMPC.Grad.C48_side_use_loses_gradient", "SyMPC.Grad.C48_second_backward", "SyMPC.Grad.C48_rsub_loses_gradient", "SyMPC.Grad.C48_division_shape", "SyMPC.Grad.C48_matrix_vector_fails", "SyMPC.Grad.C48_vector_vector_fails", "SyMPC.Grad.C48_vector_matrix_fails", "SyMPC.Grad.C48_conv2d_channels_fail", "SyMPC.Grad.C48_conv2d_pairs_fail", "SyMPC.Grad.C48_conv2d_image_height", "SyMPC.Grad.C48_conv2d_wrong_shape", "SyMPC.Grad.C48_conv2d_rectangle_fails", "SyMPC.Grad.C48_conv2d_value", "SyMPC.Grad.C48_conv2d_layer_not_trained", "SyMPC.Grad.C48_conv2d_bias_fails", "SyMPC.Grad.C48_gradients_rounded_partial"], "note": "The record built by any program (C48_record), the traversal of the graph (C48_traversal) and the full statement for programs of all operations in GRAD_FUNCS over exact real tensors (C48_gradients_partial): t, add, sub, mul, sum, pow, div, matmul, reshape, flatten, sigmoid, relu, conv2d (one image, one channel, square kernels, no padding, strides without remainder) and max_pool2d (windows with a clear maximum in the image, three dimensions or four without padding). With rounding: if each new tensor and each gradient sent to an operand is wrong by at most delta, gradients and values are wrong by at most K * delta for all small delta, with K depending on the program (C48_gradients_rounded_partial); errors inside one operation are counted at its result. Excluded are the inputs where the claim is false: side uses of intermediate results, rsub, a second backward, division with broadcasting, products with vectors, all other convolutions and poolings, and the flag that stays off."},
{"property": "C49", "status": "partial", "theorems": ["SyMPC.Tensor.C49_sums_copies_partial", "SyMPC.Tensor.C49_adjoint_partial", "SyMPC.Tensor.C49_operands_partial", "SyMPC.Tensor.C49_empty_wrong"], "note": "An operand of size 1 that is broadcast against an empty dimension is excluded; C49_empty_wrong shows that its gradient has the wrong shape."},
{"property": "C50", "status": "partial", "theorems": ["SyMPC.C50_replay_partial", "SyMPC.C50_stocked_start", "SyMPC.C50_comparisons_generate", "SyMPC.C50_log_lost"], "note": "proved for all sequences of private products started without primitives; the log misses uses of primitives in stock (C50_stocked_start), comparisons generate anyway (C50_comparisons_generate), and a log that cannot be written as JSON is lost (C50_log_lost)"},
{"property": "C51", "status": "proved", "theorems": ["SyMPC.C51_newton", "SyMPC.C51_newton_converges", "SyMPC.C51_reciprocal", "SyMPC.C51_reciprocal_accuracy", "SyMPC.C51_truediv", "SyMPC.C51_reciprocal_log", "SyMPC.C51_reciprocal_log_accuracy", "SyMPC.C51_truediv_sound", "SyMPC.C51_reciprocal_sound", "SyMPC.C51_reciprocal_session", "SyMPC.C51_truediv_session"], "note": "Exact operators, any ordered field: the error after k steps is the 2^k-th power of the start error; the reciprocal of 0 is 0; other methods raise ValueError; over the reals ten iterations give a relative error of 10^-8 for 1/100 <= |x| <= 500. The method \"log\" gives a relative error of one percent for 1/100 <= |x| <= 100. Two-party session with 16 to 20 binary places, all rounding errors included: relative error of half a percent for 1/10 <= |x| <= 10, also for division by a secret, which more than two parties are refused."},
{"property": "C52", "status": "proved", "theorems": ["SyMPC.C52_exp", "SyMPC.C52_exp_error", "SyMPC.C52_log", "SyMPC.C52_log_fixed", "SyMPC.C52_log_step", "SyMPC.C52_log_accuracy", "SyMPC.C52_exp_sound", "SyMPC.C52_exp_accuracy_sound", "SyMPC.C52_exp_session"], "note": "Exact operators: exp is (1+x/2^k)^(2^k) for all k, and for |x| <= 2^k it is below the exponential by at most the share x^2/2^k; log iterates the Householder step, which is fixed at the logarithm and has an error of order 7 in h plus that of exp. The default parameters of log give an error of at most 1/20 for 1/100 <= x <= 100 (the start value and the first step are followed on intervals in rational arithmetic that is run by the kernel and proved to bound the real values). Two-party session: exp is within 0.018 of the exponential for -256 <= x <= 0."},
{"property": "C53", "status": "proved", "theorems": ["SyMPC.C53_hardtanh", "SyMPC.C53_chebyshev", "SyMPC.C53_sigmoid_exp", "SyMPC.C53_tanh_odd", "SyMPC.C53_sigmoid_maclaurin", "SyMPC.C53_tanh_chebyshev", "SyMPC.C53_sigmoid_chebyshev", "SyMPC.C53_sigmoid_aliter", "SyMPC.C53_sigmoid_aliter_range", "SyMPC.C53_sigmoid_aliter_unbounded", "SyMPC.C53_sigmoid_accuracy", "SyMPC.C53_sigmoid_methods", "SyMPC.C53_tanh_methods", "SyMPC.C53_maclaurin_accuracy", "SyMPC.C53_maclaurin_unbounded", "SyMPC.C53_sigmoid_sound", "SyMPC.C53_tanh_sound", "SyMPC.C53_sigmoid_session", "SyMPC.C53_tanh_session"], "note": "Exact operators: the Chebyshev recurrence gives T_1, T_3, ..., other term counts raise ValueError; hardtanh clamps; all four sigmoid methods satisfy s(x)+s(-x)=1; the exp method is within 0.0022 of the sigmoid for |x| <= 256; the maclaurin method is within 0.1 for |x| <= 8 and unbounded beyond; the chebyshev-aliter method is the stated polynomial, in [0, 1] for |x| <= 8 and unbounded beyond; both tanh methods are odd, another name raises ValueError. Two-party session: sigmoid is within 0.034 for |x| <= 64, tanh within 0.07 for |x| <= 31."},
{"property": "C54", "status": "partial", "theorems": ["SyMPC.C54_private", "SyMPC.C54_public", "SyMPC.C54_scaled_public_wrong", "SyMPC.Scaled.C54_scaled_private"], "note": "Exact for tensors that are not scaled (bits as the protocols make them, precision 0) in every ring, private and public operand. The private xor of scaled bits is right up to three quanta unless a product wraps (C54_scaled_private). For scaled tensors the public xor is wrong (C54_scaled_public_wrong)."},
{"property": "C55", "status": "partial", "theorems": ["SyMPC.Grad.C55_pool_gradient_partial", "SyMPC.Grad.C55_pool_padding_wrong_shape", "SyMPC.Grad.C55_pool_dimensions_fail", "SyMPC.Grad.C55_pool_indices_fail", "SyMPC.Grad.C55_pool_ties", "SyMPC.Grad.C55_pool_padding_wins", "SyMPC.C55_relu", "SyMPC.C55_pool_arguments", "SyMPC.C55_pool_arguments_error", "SyMPC.C55_pool_refused", "SyMPC.C55_pool_partial", "SyMPC.C55_pool_padding_partial", "SyMPC.C55_relu_session", "SyMPC.C55_pool_session_partial", "SyMPC.C55_pool_ties_wrong", "SyMPC.C55_pool_padding_wrong", "SyMPC.C55_pool_wide_padding_wrong", "SyMPC.C55_pool_windows"], "note": "relu in two-party sessions is max(x, 0) up to two quanta for numbers below 2^30 quanta (C55_relu, C55_relu_session). max_pool2d: which arguments are accepted, what is refused, and for windows without ties the maxima and indices up to rounding; with padding for images without negative numbers. Its gradient, over exact numbers, goes to the places of the maxima (C55_pool_gradient_partial). Missing: ties (C55_pool_ties_wrong, C55_pool_ties), padded images with negative numbers (C55_pool_padding_wrong, C55_pool_padding_wins), paddings larger than half of the kernel (C55_pool_wide_padding_wrong), gradients of padded images with four dimensions, of other numbers of dimensions and with return_indices (C55_pool_padding_wrong_shape, C55_pool_dimensions_fail, C55_pool_indices_fail): there the claim is false. The recorded events of the comparison and truncation protocols are excluded; for rounding in the gradient see C48_gradients_rounded_partial."},
{"property": "C56", "status": "partial", "theorems": ["SyMPC.C56_linear_partial", "SyMPC.C56_state_dict_round_trip", "SyMPC.C56_sgd_step_partial", "SyMPC.C56_missing_gradient", "SyMPC.C56_zero_grad", "SyMPC.C56_sgd_generator", "SyMPC.C56_sgd_generator_zero_first"], "note": "Two parties. Linear.forward equals x W^T + b within two quanta where the shares of the product do not leave the ring (the wrap of C24/C25 is the missing case); state dictionary round trip; SGD.step is t - lr*grad within two quanta plus the precision of lr, or a product wraps. False as stated: SGD over a generator (Linear.parameters()) does one step only and its zero_grad then has no effect; a missing gradient raises TypeError after earlier parameters were changed."},
{"property": "C57", "status": "partial", "theorems": ["SyMPC.C57_copy_partial", "SyMPC.C57_copy_wrong_type"], "note": "copied fields proved; the tensor type and value range of the copy are those of 2^64 (C57_copy_wrong_type)"},
{"property": "C58", "status": "proved", "theorems": ["SyMPC.C58_instantiate_refused", "SyMPC.C58_register", "SyMPC.C58_registry_invariant", "SyMPC.C58_instantiate"], "note": ""},
{"property": "C59", "status": "partial", "theorems": ["SyMPC.C59_once", "SyMPC.C59_no_reuse", "SyMPC.C59_matching", "SyMPC.C59_on_the_fly", "SyMPC.C59_shortage"], "note": "Keys are used once and in matching pairs; a shortage after preprovisioning is proved to be a disagreement."},
{"property": "C60", "status": "partial", "theorems": ["SyMPC.C60_first_party_chooses_ring", "SyMPC.C60_other_party_cannot_partial", "SyMPC.C60_first_party_outcomes"], "note": "the ring of the opening is that of the first party's tensor: that party alone can change it (C60_first_party_chooses_ring)"},
{"property": "C61", "status": "partial", "theorems": ["SyMPC.C61_session_needed", "SyMPC.C61_public_xor_additive_wrong", "SyMPC.C61_public_xor_replicated_partial", "SyMPC.C61_public_xor_scale_wrong"], "note": "holds for replicated sharing with scale 1; wrong for additive sharing and for a scaled public operand"},
{"property": "C62", "status": "partial", "theorems": ["SyMPC.C62_log_softmax_accuracy_partial", "SyMPC.C62_softmax_session_partial", "SyMPC.C62_softmax_sound_partial", "SyMPC.C62_softmax_partial", "SyMPC.C62_softmax_ties_wrong", "SyMPC.C62_log_softmax_partial"], "note": "Exact operators: fibres of at most 500 elements with one maximum and all elements within 512 of it. Two-party session, rounding errors included: fibres of at most 8 elements up to 100. With a tie the result is wrong (C62_softmax_ties_wrong). log_softmax keeps the differences along a fibre exactly. With exact operators and fibres of at most 100 elements it is the logarithm of the softmax up to 1/20 plus 1/400 per further element. Missing: longer fibres with rounding errors; the excluded inputs, where the claim is false."},
{"property": "C63", "status": "partial", "theorems": ["SyMPC.Conv.C63_places", "SyMPC.Conv.C63_places_transposed", "SyMPC.Conv.C63_two_parties_partial", "SyMPC.Conv.C63_many_parties_partial", "SyMPC.Conv.C63_transposed_accepted", "SyMPC.Conv.C63_default_shape", "SyMPC.Conv.C63_refused", "SyMPC.Conv.C63_public_kernel", "SyMPC.Conv.C63_public_bias", "SyMPC.Conv.C63_replicated", "SyMPC.Conv.C63_many_divided_partial", "SyMPC.C63_kernel_fits", "SyMPC.C63_transposed_refused"], "note": "Two parties: torch's shape and the textbook's convolution plus bias up to two quanta; more parties with binary encoders: up to one quantum per party unless a rare number is drawn (C63_many_divided_partial). Grouped convolutions, kernels larger than the unpadded image, public kernels, public biases of several elements and replicated sharings are refused by the code (proved)."},
{"property": "C64", "status": "partial", "theorems": ["SyMPC.Module.C64_round_trip_partial", "SyMPC.Module.C64_eq_close", "SyMPC.Module.C64_eq_close_decides", "SyMPC.Module.C64_eq_close_without_bias", "SyMPC.Module.C64_flatten_not_reconstructed", "SyMPC.Module.C64_unknown_layer_refused", "SyMPC.Module.C64_conv_without_bias", "SyMPC.Module.C64_groups_not_reconstructed", "SyMPC.Module.C64_wrong_dims_refused"], "note": "Round trip for networks of linear layers (local or at a party, with or without bias) and of local convolutions with bias and one group. False for the other layers: Flatten, convolutions without bias or with groups, convolutions at a party (negations proved); eq_close raises for layers without bias."},
{"property": "C65", "status": "partial", "theorems": ["SyMPC.Module.C65_conv_layer_partial", "SyMPC.Module.C65_remote_attributes_lost", "SyMPC.Module.C65_conv_not_trainable", "SyMPC.Module.C65_attributes_checked"], "note": "Two parties, local layer with bias: forward is the layer's convolution with its own attributes, within two quanta. False for layers at a party (attributes lost), for layers without bias, and parameters are not trainable (negations proved)."},
{"property": "C66", "status": "partial", "theorems": ["SyMPC.C66_dimension_numbers", "SyMPC.Shape.C66_reconstruct", "SyMPC.Shape.C66_share", "SyMPC.Shape.C66_methods", "SyMPC.Shape.C66_private", "SyMPC.Shape.C66_public_partial", "SyMPC.Shape.C66_public_sum_value", "SyMPC.Shape.C66_product", "SyMPC.Shape.C66_programs_partial", "SyMPC.Shape.C66_len", "SyMPC.Shape.C66_enlarged_sum_wrong", "SyMPC.Shape.C66_enlarged_product_fails", "SyMPC.Shape.C66_scalar_plus_number", "SyMPC.Shape.C66_list_shape_fails", "SyMPC.Shape.C66_unknown_shape", "SyMPC.Shape.C66_isub_stale_shape", "SyMPC.Shape.C66_divide_stale_shape", "SyMPC.Shape.C66_dim_fails", "SyMPC.Shape.C66_method_elements", "SyMPC.Shape.C66_sum_elements", "SyMPC.Shape.C66_sum_all"], "note": "Full for sharing, reconstructing, private operations, products and methods; programs with public operands need that no public operand is larger than the secret it is added to (false otherwise: C66_enlarged_sum_wrong and others). Truncation (precision above 0) is the subject of C81."},
{"property": "C67", "status": "partial", "theorems": ["SyMPC.Equality.C67_session_eq", "SyMPC.Equality.C67_session_equivalence", "SyMPC.Equality.C67_session_new", "SyMPC.Equality.C67_session_ring", "SyMPC.Equality.C67_share_eq_partial", "SyMPC.Equality.C67_share_refl", "SyMPC.Equality.C67_share_symm", "SyMPC.Equality.C67_share_not_transitive", "SyMPC.Equality.C67_share_shapes_ignored", "SyMPC.Equality.C67_share_ring_ignored", "SyMPC.Equality.C67_replicated_eq_partial", "SyMPC.Equality.C67_replicated_split_ignored", "SyMPC.Equality.C67_share_order", "SyMPC.Equality.C67_share_order_meaningless"], "note": "Full for sessions. For shares the characterisation needs equal shapes; the full claim is false for the code: equality is not transitive, broadcasts, and ignores the ring of additive shares (negations proved)."},
{"property": "C68", "status": "proved", "theorems": ["SyMPC.C68_triples_delivered", "SyMPC.C68_triples_requested", "SyMPC.C68_triples_by_number", "SyMPC.C68_not_registered", "SyMPC.C68_wraps_not_stored", "SyMPC.Provider.C68_register", "SyMPC.Provider.C68_first_registration", "SyMPC.Provider.C68_delivery", "SyMPC.Provider.C68_refused", "SyMPC.Provider.C68_not_transferred", "SyMPC.Provider.C68_no_adder", "SyMPC.Provider.C68_logged", "SyMPC.Provider.C68_half_delivered", "SyMPC.Provider.C68_hooks"], "note": "Delivery is stated for adders that accept what they are given; that a delivery which fails half way is not undone is C68_half_delivered."},
{"property": "C69", "status": "partial", "theorems": ["SyMPC.C69_mse_exact", "SyMPC.C69_mean_of_matrices", "SyMPC.C69_matrix_mean_wrong", "SyMPC.C69_mse_sound_partial", "SyMPC.C69_rtruediv_sound_partial", "SyMPC.C69_mse_session_partial", "SyMPC.C69_rtruediv_session_partial"], "note": "False for the code when an entry of the first dimension has several elements (C69_matrix_mean_wrong); the reciprocal is accurate for moduli between 0.1 and 10 and numerators up to 90 only."},
{"property": "C70", "status": "partial", "theorems": ["SyMPC.C70_share_alone", "SyMPC.C70_left_product", "SyMPC.C70_rmatmul_two", "SyMPC.C70_rmatmul_many_partial", "SyMPC.C70_rmatmul_matrices_partial"], "note": "The product of shares for any number of parties; the division per element for two parties; for three and more parties with binary encoders (C70_rmatmul_matrices_partial); other bases are wrong by C27_float32_error."},
{"property": "C71", "status": "partial", "theorems": ["SyMPC.C71_divide_partial", "SyMPC.C71_shift_partial", "SyMPC.C71_shift_range", "SyMPC.C71_shift_refused", "SyMPC.C71_divide_accepts", "SyMPC.C71_public_matmul", "SyMPC.C71_cat_partial", "SyMPC.C71_divide_wrap_wrong", "SyMPC.C71_cat_ring_wrong", "SyMPC.C71_cat_other_protocol", "SyMPC.C71_without_session"], "note": "False for shares that wrap around (C71_divide_wrap_wrong) and for concatenation in other rings or protocols (C71_cat_ring_wrong, C71_cat_other_protocol); proved otherwise."},
{"property": "C72", "status": "partial", "theorems": ["SyMPC.C72_bits_partial", "SyMPC.C72_bits_prime", "SyMPC.C72_negative", "SyMPC.C72_rounded"], "note": "Proved for numbers from 0 to 2^24 and for the prime ring; false for negative numbers (C72_negative) and for larger ones that float32 rounds (C72_rounded)."},
{"property": "C73", "status": "proved", "theorems": ["SyMPC.Program.C73_programs", "SyMPC.Program.C73_integer_programs", "SyMPC.Program.C73_division_by_one"], "note": "for additive shares and the products before the division by the scale; that division is by 1 for precision 0 (C73_division_by_one)"},
{"property": "C74", "status": "partial", "theorems": ["SyMPC.Program.C74_views_partial", "SyMPC.Program.C74_opening_partial"], "note": "for random tensors drawn from the whole ring; the code draws from half of it (C04_half_range_leaks, C19_half_range_leaks)"},
{"property": "C75", "status": "proved", "theorems": ["SyMPC.RProgram.C75_programs", "SyMPC.RProgram.C75_integer_programs"], "note": "three parties, ring 2^64 (or any ring with scaling), tensors of one shape"},
{"property": "C76", "status": "partial", "theorems": ["SyMPC.RProgram.C76_views_partial", "SyMPC.RProgram.C76_coordinator_sees_products"], "note": "for tensors drawn from the whole ring; the code draws from half of it; the coordinator collects every product (C76_coordinator_sees_products)"},
{"property": "C77", "status": "partial", "theorems": ["SyMPC.Chebyshev.C77_coefficients", "SyMPC.Chebyshev.C77_interpolates", "SyMPC.Chebyshev.C77_tanh_accuracy", "SyMPC.Chebyshev.C77_sigmoid_accuracy", "SyMPC.Chebyshev.C77_tensor_partial", "SyMPC.Chebyshev.C77_transposed", "SyMPC.C77_tanh_sound", "SyMPC.C77_sigmoid_sound", "SyMPC.C77_tanh_session", "SyMPC.C77_sigmoid_session"], "note": "chebyshev_series finds all coefficients of sums of the first n Chebyshev polynomials and interpolates every function at the nodes (any n, width; over the reals). With exact operators tanh by chebyshev is within 0.001 for |x| <= 1 and always in [-1, 1]; sigmoid by chebyshev within 0.0005 for |x| <= 2. With the rounding errors of a two-party session and coefficients within 1e-5 both are within 0.002 (C77_tanh_session for |x| <= 1, C77_sigmoid_session for |x| <= 1.9). For numbers and vectors the shape is kept (C77_tensor_partial); for more dimensions the result is transposed (C77_transposed): a defect of the code."},
{"property": "C78", "status": "proved", "theorems": ["SyMPC.RProgram.C78_replicated_programs", "SyMPC.C78_two_party_programs", "SyMPC.C78_many_parties"], "note": "Two-party sessions (either a wrapping truncation is recorded or every tensor decodes within the estimate), three-party replicated sessions (semi-honest and malicious, any base and precision, under the condition that no product recorded in the log wraps), and additive sessions of three or more parties with binary encoders (C78_many_parties, unless a rare number was drawn for a division), for all programs, tensors, draws. Inputs are exact rational numbers; the estimates must fit the ring (Room)."},
{"property": "C79", "status": "partial", "theorems": ["SyMPC.DivideView.C79_division_views_partial", "SyMPC.DivideView.C79_wraps_leak", "SyMPC.C79_programs_partial"], "note": "without the correction every view of all parties but one comes from exactly one choice of the random tensors (C79_division_views_partial), so a coalition without the first party learns nothing, also from whole programs with products (C79_programs_partial); the correction shown to the first party depends on the secret (C79_wraps_leak, the code opens the number of wraps)"},
{"property": "C80", "status": "proved", "theorems": ["SyMPC.C80_round_trip", "SyMPC.C80_rings", "SyMPC.C80_small_rings", "SyMPC.C80_items", "SyMPC.C80_no_item", "SyMPC.C80_properties"], "note": "Round trip for all supported rings when the encodings fit the torch type (C80_round_trip; beyond it the stored numbers are wrong, C80_small_rings); item access for all indices; properties T and shape."},
{"property": "C81", "status": "proved", "theorems": ["SyMPC.Shape.C81_two_party_programs", "SyMPC.Shape.C81_many_party_programs"], "note": "Two-party sessions (C81_two_party_programs) and additive sessions of three or more parties with binary encoders (C81_many_party_programs); errors agree with torch's unconditionally, values under the conditions Encodes, Narrow, Room and NoWrap or NoRare. Inputs are exact rational numbers; matrix products of at most two dimensions."},
{"property": "C82", "status": "partial", "theorems": ["SyMPC.RShape.C82_share", "SyMPC.RShape.C82_reconstruct", "SyMPC.RShape.C82_reconstruct_decides", "SyMPC.RShape.C82_private", "SyMPC.RShape.C82_methods", "SyMPC.RShape.C82_methods_missing", "SyMPC.RShape.C82_tampered_product_refused", "SyMPC.RShape.C82_product", "SyMPC.RShape.C82_empty_malicious_refused", "SyMPC.RShape.C82_public_partial", "SyMPC.RShape.C82_programs_partial", "SyMPC.RShape.C82_enlarged_sum_wrong", "SyMPC.RShape.C82_enlarged_product_wrong"], "note": "Proved for all programs, shapes, values and draws. Missing: public operands that enlarge a secret in a sum and empty products with malicious security, where the code is wrong or raises (negations proved)."},
{"property": "C83", "status": "proved", "theorems": ["SyMPC.RShape.C83_replicated_programs"], "note": "For programs without public operands that enlarge a secret in a sum and, with malicious security, without empty products (the statement's restriction, see C82)."},
{"property": "C84", "status": "partial", "theorems": ["SyMPC.Operators.C84_names", "SyMPC.Operators.C84_names_only_recorded", "SyMPC.Operators.C84_names_of_operators", "SyMPC.Operators.C84_expressions_partial", "SyMPC.Operators.C84_tracking_partial", "SyMPC.Operators.C84_not_recorded", "SyMPC.Operators.C84_missing_operators", "SyMPC.Operators.C84_fractional_power", "SyMPC.Operators.C84_fractional_power_recorded", "SyMPC.Operators.C84_zero_power_recorded", "SyMPC.Operators.C84_reflected_untracked", "SyMPC.Operators.C84_in_place", "SyMPC.Operators.C84_rebound"], "note": "Values and tracking of all expressions over the operators that secrets have, with integer powers. The rest is refuted: fractional powers are silently rounded to an even power, public - secret and public @ secret lose the gradient, x -= y changes aliases; missing operators raise TypeError (proved)."},
{"property": "C85", "status": "partial", "theorems": ["SyMPC.Argmax.C85_one_hot", "SyMPC.Argmax.C85_argmax_sums", "SyMPC.Argmax.C85_max_sums", "SyMPC.Argmax.C85_argmax_partial", "SyMPC.Argmax.C85_max_partial", "SyMPC.Argmax.C85_bad_dimension", "SyMPC.Argmax.C85_argmax_flat", "SyMPC.Argmax.C85_argmax_matrix_fails", "SyMPC.Argmax.C85_max_matrix_fails", "SyMPC.Argmax.C85_scalar_fails", "SyMPC.Argmax.C85_row_partial", "SyMPC.Argmax.C85_max_column", "SyMPC.Argmax.C85_ties_wrong", "SyMPC.Argmax.C85_column_wrong"], "note": "For every shape and every dim (negative ones included): the one-hot tensor marks exactly the largest elements of each slice (C85_one_hot), argmax and max have the shape of torch and are the index and the value when the largest element is unique (C85_argmax_partial, C85_max_partial), sums over the ties otherwise (C85_argmax_sums, C85_max_sums); dims out of range raise IndexError. Without dim exact values for all shapes (C85_argmax_flat), right for rows (C85_row_partial). The full claim is false: C85_argmax_matrix_fails and C85_max_matrix_fails (every matrix), C85_column_wrong, C85_max_column, C85_scalar_fails, C85_ties_wrong."},
{"property": "C86", "status": "proved", "theorems": ["SyMPC.Network.C86_inference", "SyMPC.Network.C86_same_class"], "note": "Two-party sessions with function secret sharing, networks of Linear layers and ReLU of any depth: unless a wrapping truncation or the output -2^31 of function secret sharing is recorded, every opened output is within net.error of torch's (C86_inference), and a class that leads by more than the errors is predicted (C86_same_class). Weights and inputs are exact rational numbers; the numbers must fit (Net.Fits)."},
{"property": "C87", "status": "proved", "theorems": ["SyMPC.Grad.C87_round", "SyMPC.Grad.C87_unused_parameter", "SyMPC.Grad.C87_training", "SyMPC.Grad.C87_regression"], "note": "Any number of rounds in one session, each with its own computation and data, is gradient descent (C87_training, C87_round, with exact arithmetic, where the losses are differentiable as for C48); a parameter not used for the loss makes step raise TypeError (C87_unused_parameter); linear regression computes the least mean squares rule (C87_regression). Rounding errors of training are not estimated."},
{"property": "C88", "status": "partial", "theorems": ["SyMPC.C88_party_view_partial", "SyMPC.C88_caller_learns_difference", "SyMPC.C88_caller_tells_apart", "SyMPC.C88_shown_is_remainder"], "note": "What a party is shown comes, for every secret, from exactly one choice of the masks of the other party (C88_party_view_partial; the part of the keys beyond the masks is assumed to hide them). The caller of fss_op opens the difference of the secrets plus two 32 bit masks modulo 2^64 and so learns the difference up to 2^33 quanta (C88_caller_learns_difference, C88_caller_tells_apart): there the claim is false."},
{"property": "C89", "status": "proved", "theorems": ["SyMPC.C89_comparisons_alone", "SyMPC.C89_products_shared", "SyMPC.C89_setup_sessions"], "note": "the uuids drawn by uuid4 are assumed to be different; random shares of zero are not part of it"},
{"property": "C90", "status": "proved", "theorems": ["SyMPC.C90_refused_products", "SyMPC.C90_refused_triples"], "note": ""},
{"property": "C91", "status": "proved", "theorems": ["SyMPC.Shape.C91_two_parties", "SyMPC.Shape.C91_many_parties", "SyMPC.RShape.C91_replicated"], "note": "additive shares: two parties with any encoder, three or more under the assumptions of C81 (binary encoder of at most 24 bits); replicated shares: three parties, semi-honest, ring 2^64."},
{"property": "C92", "status": "proved", "theorems": ["SyMPC.LinearTraining.C92_layer_two_parties", "SyMPC.LinearTraining.C92_layer_many_parties", "SyMPC.LinearTraining.C92_layer_replicated", "SyMPC.Regression.C92_two_parties", "SyMPC.Regression.C92_many_parties", "SyMPC.Regression.C92_replicated"], "note": "The calls of the loop are unrolled by hand, for x @ w and for a Linear layer with a bias; the estimate of the error is the one of C81."},
{"property": "C93", "status": "partial", "theorems": ["SyMPC.Shape.C93_two_parties_partial", "SyMPC.Shape.C93_many_parties_partial"], "note": "two parties: programs with shapes and fixed point numbers; any number of parties if each divides its own share. Missing: the code draws from half of the ring (C04, C19), and three or more parties open more when they divide (C79)."},
{"property": "C94", "status": "proved", "theorems": ["SyMPC.C94_sharing", "SyMPC.C94_last_party", "SyMPC.C94_exact", "SyMPC.C94_opened"], "note": "counted over the draws that torch can make; the uniform and independent choice of these numbers is assumed. The shares of the triples are not part of the statement on opened values."},
{"property": "C95", "status": "partial", "theorems": ["SyMPC.RShape.C95_one_party_partial"], "note": "For both security types, whatever the program; drawn from the whole ring (the code draws from half of it), for public operands that do not enlarge the secret they are added to."},
{"property": "C96", "status": "partial", "theorems": ["SyMPC.RShape.C96_one_liar_partial", "SyMPC.RShape.C96_without_lies", "SyMPC.RShape.C96_accepted_product", "SyMPC.RShape.C96_truncation_forged", "SyMPC.RShape.C96_triple_forged", "SyMPC.RShape.C96_guess_forged"], "note": "All lies but those about triples and, for parties 0 and 1, about masked operands and about the shares that are truncated; there the code notices nothing (C96_triple_forged, C96_guess_forged, C96_truncation_forged). C96_accepted_product: a product accepted after lies about masked operands is the product of the factors as the lies change them."},
{"property": "C97", "status": "partial", "theorems": ["SyMPC.C97_additive", "SyMPC.C97_semi_honest_partial", "SyMPC.C97_malicious_checked", "SyMPC.C97_three_party_honest", "SyMPC.C97_malicious_nested"], "note": "Additive shares and semi-honest replicated shares in full; with malicious security the checks (C97_malicious_checked, C97_three_party_honest) but not the form of the result, where the claim is false (C97_malicious_nested)."},
{"property": "C98", "status": "partial", "theorems": ["SyMPC.C98_round_trip_partial", "SyMPC.C98_rings", "SyMPC.C98_bit_ring_wrong", "SyMPC.C98_one_in_bit_ring"], "note": "Round trip for all supported rings when the encodings fit the torch type of the ring (C98_round_trip_partial). Missing: numbers beyond it, where the code is wrong without an error; in the ring 2 with a scale nothing but 0 or one quantum comes back (C98_bit_ring_wrong, C98_one_in_bit_ring). Refusal of rings decided (C98_rings)."},
{"property": "C99", "status": "partial", "theorems": ["SyMPC.C99_replicated", "SyMPC.C99_replicated_not_joined", "SyMPC.C99_session", "SyMPC.C99_default_ring_partial", "SyMPC.C99_alone_partial", "SyMPC.C99_joins", "SyMPC.C99_ring_forgotten"], "note": "Session and configuration for all nested expressions of additive shares, with exactly the ring that results (C99_session); all of the claim in the ring 2^64 (C99_default_ring_partial), for shares without a session when nothing is divided or transposed (C99_alone_partial), joining a session (C99_joins); replicated shares in every ring (C99_replicated). Missing: other rings after a forwarded method or a division of additive shares, where the code forgets the ring (C99_ring_forgotten), and replicated shares joining a session, which they do not (C99_replicated_not_joined)."}
]}
