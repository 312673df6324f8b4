{
"C01": [
"partial",
"exact on rationals; with the float32 arithmetic of torch the error is at most one quantum plus 2^-21 times the size of the number plus 2 (C01_float32_error), and no better bound by one quantum holds for large numbers (C02_float32_inexact)"
],
"C02": [
"partial",
"on rationals for scales below 2^63; base 1 with a positive precision overflows at -2^63 (C02_base_one_overflow); in float32 exact for base 2 up to 24 bits, C02_float32_inexact and C02_float32_small_negative show the loss beyond; for every value, base and precision float32 is off by at most 2^-22 times the size plus 2 (C02_float32_error)"
],
"C37": [
"proved",
"for canonical residues, which is all the ring ever holds; C37_noncanonical_counterexample shows the need"
],
"C03": [
"proved",
"any abelian group of share values, any number of parties from two on; the degenerate party counts are in C03_degenerate"
],
"C04": [
"partial",
"proved for masks drawn from the whole ring; the code draws masks from half the ring and C04_half_range_leaks shows the claim is false for it"
],
"C05": [
"proved",
"any number of parties and any ring, generators as deterministic state machines"
],
"C06": [
"proved",
""
],
"C07": [
"partial",
"holds for additive sharing and a holder that is a party; an outside holder gives 0, a missing shape an error, and replicated sharing of remote secrets is broken (C07_outside_holder, C07_shape_required, C07_replicated_broken)"
],
"C11": [
"proved",
"additive and replicated sharing"
],
"C12": [
"proved",
""
],
"C44": [
"proved",
""
],
"C45": [
"proved",
""
],
"C46": [
"partial",
"first setup proved; a second setup fails (C46_second_setup_fails)"
],
"C47": [
"partial",
"holds for calls without keyword arguments; C47_history_dependent and C47_poisoned_session are the counterexamples"
],
"C57": [
"partial",
"copied fields proved; the tensor type and value range of the copy are those of 2^64 (C57_copy_wrong_type)"
],
"C58": [
"proved",
""
],
"C08": [
"proved",
"any number of parties, both security types, every ring with a RingSem"
],
"C09": [
"proved",
""
],
"C10": [
"proved",
"three parties detect; C10_four_parties_undetected shows the limit of the guarantee"
],
"C13": [
"partial",
"All rings, parties and encoded values (C13_public_linear_replicated); numbers in the prime ring (C13_prime_public_numbers). In the bit ring every public number of absolute value at least 1 counts as 1 (C13_bit_public_numbers), so even integers are wrong (C13_bit_even_wrong)."
],
"C14": [
"partial",
"share level exact for additive sharing; the tensor-level public - secret of two parties is within one quantum when the products with the scale do not wrap (C14_rsub_two_partial); with replicated sharing the sign is wrong (C14_replicated_rsub_wrong)"
],
"C15": [
"proved",
"bi-additive products (mul, matmul, conv2d) before truncation"
],
"C16": [
"partial",
"sum is exact in the ring of 2^64; in the other rings the result leaves the ring (C16_sum_bit_ring_wrong, C16_sum_int32_wrong)"
],
"C17": [
"partial",
"dimension 0 proved for all shapes and party counts; every other dimension is ignored by the shares (C17_cat_dim_ignored, C17_stack_dim_ignored)"
],
"C60": [
"partial",
"the ring of the opening is that of the first party's tensor: that party alone can change it (C60_first_party_chooses_ring)"
],
"C61": [
"partial",
"holds for replicated sharing with scale 1; wrong for additive sharing and for a scaled public operand"
],
"C18": [
"proved",
"For every number of parties of at least two (generate_shares rejects one)."
],
"C19": [
"partial",
"The half-range masks drawn by torch's random_() leak: C19_half_range_leaks; the hiding statement is proved for masks that range over the whole ring."
],
"C20": [
"proved",
""
],
"C21": [
"proved",
""
],
"C23": [
"partial",
"The store key does not contain the keyword arguments, so a triple made for other strides/paddings is served: C23_kwargs_not_in_key; proved when all calls use the same keyword arguments."
],
"C24": [
"proved",
""
],
"C25": [
"proved",
"two parties; the histories of C18"
],
"C26": [
"partial",
"exact unless -2^63 is added to -2^63 (C26_min_pair_missed); C26_count_wraps_error gives the error in every case"
],
"C27": [
"partial",
"Integers for every divisor, binary fixed point for powers of two (the truncation after products), also for whole tensors (C27_tensors_pow2_partial); for other divisors the float32 correction is wrong (C27_float32_error)."
],
"C28": [
"partial",
"two parties and division-free programs proved (programs on a heap of share objects behave as on values); with three or more parties the operand, tensors aliasing it and earlier results change (C28_operand_changed, C28_alias_changed, C28_result_changed)"
],
"C22": [
"partial",
"The claim is false for the code: (c != op(a, b)).all() raises only if every position is wrong (C22_check_partial gives the exact condition, C22_wrong_triple_accepted a wrong triple that passes). Proved: the check is exact for one element (C22_single_element), honest generation always yields a correct triple (C22_generated), and triples without elements are always rejected (C22_empty_rejected)."
],
"C29": [
"proved",
"For every bi-additive operation and ring (C29_product), and for the bit ring, the prime ring, the rings 2**w (element-wise and matrix product) at the level of the opened result."
],
"C30": [
"proved",
"Single products, share-by-share agreement with the semi-honest protocol (also for scaled tensors), and whole runs from empty stores with triples generated on demand. Results must have at least one element (see C22_empty_rejected)."
],
"C31": [
"proved",
"Exact condition of acceptance for consistent sharings; tampered product shares raise."
],
"C32": [
"proved",
"Rings 2**8 to 2**64, all masks, all configurations whose scale fits; C32_wraps_iff says exactly for which first shares the condition holds, C32_wrap_witness that it is needed, C32_wraps_count and C32_product_wraps_rare how many of the random numbers violate it. Also for x * y of scaled secrets."
],
"C54": [
"partial",
"Exact for tensors that are not scaled (bits as the protocols make them, precision 0) in every ring, private and public operand. The private xor of scaled bits is right up to three quanta unless a product wraps (C54_scaled_private). For scaled tensors the public xor is wrong (C54_scaled_public_wrong)."
],
"C33": [
"proved",
"bit_injection into any supported ring, for tensors of any shape; a tensor outside the bit ring is refused."
],
"C34": [
"proved",
"bit_decomposition and bit_decomposition_ttp for every ring width; proofs by induction over the carry chain."
],
"C35": [
"partial",
"private_compare is correct for x != r for every draw; for x == r the result is the complement of the drawn bit, so the claim fails there (C35_depends_on_draw)."
],
"C36": [
"proved",
"select_shares element by element for every ring, shape, scale and draw."
],
"C42": [
"partial",
"Replicated sharing: exact for positive exponents of unscaled tensors; scaled tensors (both security types) within C^n((1+2/scale)^n-1) unless a product wraps (C42_replicated_scaled). Two-party sessions: exact for integers, within C^p((1+2/scale)^p-1) for scaled numbers up to C. x ** 0 is the Python int 1 rather than a secret (C42_zero_not_secret). Missing: only the exponent 0, where the claim is false."
],
"C38": [
"partial",
"Two-party sessions, 32-bit function secret sharing with correct keys (assumption on the sycret library): equality is exact modulo 2^32, comparison is exact for differences in the range of the key; far secrets, unsigned keys and minimal outputs are proved to go wrong."
],
"C39": [
"partial",
"ge, lt, gt and their trichotomy for every protocol that compares correctly, base 2 and base 10 quanta; function secret sharing is such a protocol for secrets less than 2^31 quanta apart (C39_fss_correct); ne exact with function secret sharing unless the first output is -2^31 + 1 (C39_fss_ne, C39_fss_ne_wrong); with more than two parties all raise ValueError (C39_only_two_parties); base 3 is proved to go wrong"
],
"C59": [
"partial",
"Keys are used once and in matching pairs; a shortage after preprovisioning is proved to be a disagreement."
],
"C40": [
"proved",
"C40_sort: for any sound operators the result is a permutation of the inputs up to the rounding of the products, in order up to that rounding; exact when products are exact. C40_sort_session instantiates this with the modelled two-party operators (Beaver products, function secret sharing comparisons), apart from the two recorded events (share addition leaving the ring, key output -2^31). The caller's list is sorted in place. A wrong shape raises ValueError."
],
"C41": [
"partial",
"For a unique maximum (per fibre, or of a vector without dim): argmax is its index and max its value, each up to one rounding error per element, no exception; over any sound operators and for the two-party session (exact with precision 0). C41_max_counts: max() is the maximum times its multiplicity. The full claim is false: C41_ties_wrong, C41_max_ties_wrong (ties) and C41_shape_wrong (argmax of a column without dim; C85 treats all shapes)."
],
"C51": [
"proved",
"Exact operators, any ordered field: the error after k steps is the 2^k-th power of the start error; the reciprocal of 0 is 0; other methods raise ValueError; over the reals ten iterations give a relative error of 10^-8 for 1/100 <= |x| <= 500. The method \"log\" gives a relative error of one percent for 1/100 <= |x| <= 100. Two-party session with 16 to 20 binary places, all rounding errors included: relative error of half a percent for 1/10 <= |x| <= 10, also for division by a secret, which more than two parties are refused."
],
"C52": [
"proved",
"Exact operators: exp is (1+x/2^k)^(2^k) for all k, and for |x| <= 2^k it is below the exponential by at most the share x^2/2^k; log iterates the Householder step, which is fixed at the logarithm and has an error of order 7 in h plus that of exp. The default parameters of log give an error of at most 1/20 for 1/100 <= x <= 100 (the start value and the first step are followed on intervals in rational arithmetic that is run by the kernel and proved to bound the real values). Two-party session: exp is within 0.018 of the exponential for -256 <= x <= 0."
],
"C53": [
"proved",
"Exact operators: the Chebyshev recurrence gives T_1, T_3, ..., other term counts raise ValueError; hardtanh clamps; all four sigmoid methods satisfy s(x)+s(-x)=1; the exp method is within 0.0022 of the sigmoid for |x| <= 256; the maclaurin method is within 0.1 for |x| <= 8 and unbounded beyond; the chebyshev-aliter method is the stated polynomial, in [0, 1] for |x| <= 8 and unbounded beyond; both tanh methods are odd, another name raises ValueError. Two-party session: sigmoid is within 0.034 for |x| <= 64, tanh within 0.07 for |x| <= 31."
],
"C62": [
"partial",
"Exact operators: fibres of at most 500 elements with one maximum and all elements within 512 of it. Two-party session, rounding errors included: fibres of at most 8 elements up to 100. With a tie the result is wrong (C62_softmax_ties_wrong). log_softmax keeps the differences along a fibre exactly. With exact operators and fibres of at most 100 elements it is the logarithm of the softmax up to 1/20 plus 1/400 per further element. Missing: longer fibres with rounding errors; the excluded inputs, where the claim is false."
],
"C43": [
"proved",
"all schedules of the atomic steps of the workers, states of the parties included; refused inputs in C43_refused"
],
"C50": [
"partial",
"proved for all sequences of private products started without primitives; the log misses uses of primitives in stock (C50_stocked_start), comparisons generate anyway (C50_comparisons_generate), and a log that cannot be written as JSON is lost (C50_log_lost)"
],
"C49": [
"partial",
"An operand of size 1 that is broadcast against an empty dimension is excluded; C49_empty_wrong shows that its gradient has the wrong shape."
],
"C48": [
"partial",
"The record built by any program (C48_record), the traversal of the graph (C48_traversal) and the full statement for programs of all operations in GRAD_FUNCS over exact real tensors (C48_gradients_partial): t, add, sub, mul, sum, pow, div, matmul, reshape, flatten, sigmoid, relu, conv2d (one image, one channel, square kernels, no padding, strides without remainder) and max_pool2d (windows with a clear maximum in the image, three dimensions or four without padding). With rounding: if each new tensor and each gradient sent to an operand is wrong by at most delta, gradients and values are wrong by at most K * delta for all small delta, with K depending on the program (C48_gradients_rounded_partial); errors inside one operation are counted at its result. Excluded are the inputs where the claim is false: side uses of intermediate results, rsub, a second backward, division with broadcasting, products with vectors, all other convolutions and poolings, and the flag that stays off."
],
"C55": [
"partial",
"relu in two-party sessions is max(x, 0) up to two quanta for numbers below 2^30 quanta (C55_relu, C55_relu_session). max_pool2d: which arguments are accepted, what is refused, and for windows without ties the maxima and indices up to rounding; with padding for images without negative numbers. Its gradient, over exact numbers, goes to the places of the maxima (C55_pool_gradient_partial). Missing: ties (C55_pool_ties_wrong, C55_pool_ties), padded images with negative numbers (C55_pool_padding_wrong, C55_pool_padding_wins), paddings larger than half of the kernel (C55_pool_wide_padding_wrong), gradients of padded images with four dimensions, of other numbers of dimensions and with return_indices (C55_pool_padding_wrong_shape, C55_pool_dimensions_fail, C55_pool_indices_fail): there the claim is false. The recorded events of the comparison and truncation protocols are excluded; for rounding in the gradient see C48_gradients_rounded_partial."
],
"C56": [
"partial",
"Two parties. Linear.forward equals x W^T + b within two quanta where the shares of the product do not leave the ring (the wrap of C24/C25 is the missing case); state dictionary round trip; SGD.step is t - lr*grad within two quanta plus the precision of lr, or a product wraps. False as stated: SGD over a generator (Linear.parameters()) does one step only and its zero_grad then has no effect; a missing gradient raises TypeError after earlier parameters were changed."
],
"C63": [
"partial",
"Two parties: torch's shape and the textbook's convolution plus bias up to two quanta; more parties with binary encoders: up to one quantum per party unless a rare number is drawn (C63_many_divided_partial). Grouped convolutions, kernels larger than the unpadded image, public kernels, public biases of several elements and replicated sharings are refused by the code (proved)."
],
"C64": [
"partial",
"Round trip for networks of linear layers (local or at a party, with or without bias) and of local convolutions with bias and one group. False for the other layers: Flatten, convolutions without bias or with groups, convolutions at a party (negations proved); eq_close raises for layers without bias."
],
"C65": [
"partial",
"Two parties, local layer with bias: forward is the layer's convolution with its own attributes, within two quanta. False for layers at a party (attributes lost), for layers without bias, and parameters are not trainable (negations proved)."
],
"C66": [
"partial",
"Full for sharing, reconstructing, private operations, products and methods; programs with public operands need that no public operand is larger than the secret it is added to (false otherwise: C66_enlarged_sum_wrong and others). Truncation (precision above 0) is the subject of C81."
],
"C67": [
"partial",
"Full for sessions. For shares the characterisation needs equal shapes; the full claim is false for the code: equality is not transitive, broadcasts, and ignores the ring of additive shares (negations proved)."
],
"C68": [
"proved",
"Delivery is stated for adders that accept what they are given; that a delivery which fails half way is not undone is C68_half_delivered."
],
"C69": [
"partial",
"False for the code when an entry of the first dimension has several elements (C69_matrix_mean_wrong); the reciprocal is accurate for moduli between 0.1 and 10 and numerators up to 90 only."
],
"C70": [
"partial",
"The product of shares for any number of parties; the division per element for two parties; for three and more parties with binary encoders (C70_rmatmul_matrices_partial); other bases are wrong by C27_float32_error."
],
"C71": [
"partial",
"False for shares that wrap around (C71_divide_wrap_wrong) and for concatenation in other rings or protocols (C71_cat_ring_wrong, C71_cat_other_protocol); proved otherwise."
],
"C72": [
"partial",
"Proved for numbers from 0 to 2^24 and for the prime ring; false for negative numbers (C72_negative) and for larger ones that float32 rounds (C72_rounded)."
],
"C73": [
"proved",
"for additive shares and the products before the division by the scale; that division is by 1 for precision 0 (C73_division_by_one)"
],
"C74": [
"partial",
"for random tensors drawn from the whole ring; the code draws from half of it (C04_half_range_leaks, C19_half_range_leaks)"
],
"C75": [
"proved",
"three parties, ring 2^64 (or any ring with scaling), tensors of one shape"
],
"C76": [
"partial",
"for tensors drawn from the whole ring; the code draws from half of it; the coordinator collects every product (C76_coordinator_sees_products)"
],
"C77": [
"partial",
"chebyshev_series finds all coefficients of sums of the first n Chebyshev polynomials and interpolates every function at the nodes (any n, width; over the reals). With exact operators tanh by chebyshev is within 0.001 for |x| <= 1 and always in [-1, 1]; sigmoid by chebyshev within 0.0005 for |x| <= 2. With the rounding errors of a two-party session and coefficients within 1e-5 both are within 0.002 (C77_tanh_session for |x| <= 1, C77_sigmoid_session for |x| <= 1.9). For numbers and vectors the shape is kept (C77_tensor_partial); for more dimensions the result is transposed (C77_transposed): a defect of the code."
],
"C78": [
"proved",
"Two-party sessions (either a wrapping truncation is recorded or every tensor decodes within the estimate), three-party replicated sessions (semi-honest and malicious, any base and precision, under the condition that no product recorded in the log wraps), and additive sessions of three or more parties with binary encoders (C78_many_parties, unless a rare number was drawn for a division), for all programs, tensors, draws. Inputs are exact rational numbers; the estimates must fit the ring (Room)."
],
"C79": [
"partial",
"without the correction every view of all parties but one comes from exactly one choice of the random tensors (C79_division_views_partial), so a coalition without the first party learns nothing, also from whole programs with products (C79_programs_partial); the correction shown to the first party depends on the secret (C79_wraps_leak, the code opens the number of wraps)"
],
"C80": [
"proved",
"Round trip for all supported rings when the encodings fit the torch type (C80_round_trip; beyond it the stored numbers are wrong, C80_small_rings); item access for all indices; properties T and shape."
],
"C81": [
"proved",
"Two-party sessions (C81_two_party_programs) and additive sessions of three or more parties with binary encoders (C81_many_party_programs); errors agree with torch's unconditionally, values under the conditions Encodes, Narrow, Room and NoWrap or NoRare. Inputs are exact rational numbers; matrix products of at most two dimensions."
],
"C82": [
"partial",
"Proved for all programs, shapes, values and draws. Missing: public operands that enlarge a secret in a sum and empty products with malicious security, where the code is wrong or raises (negations proved)."
],
"C83": [
"proved",
"For programs without public operands that enlarge a secret in a sum and, with malicious security, without empty products (the statement's restriction, see C82)."
],
"C84": [
"partial",
"Values and tracking of all expressions over the operators that secrets have, with integer powers. The rest is refuted: fractional powers are silently rounded to an even power, public - secret and public @ secret lose the gradient, x -= y changes aliases; missing operators raise TypeError (proved)."
],
"C85": [
"partial",
"For every shape and every dim (negative ones included): the one-hot tensor marks exactly the largest elements of each slice (C85_one_hot), argmax and max have the shape of torch and are the index and the value when the largest element is unique (C85_argmax_partial, C85_max_partial), sums over the ties otherwise (C85_argmax_sums, C85_max_sums); dims out of range raise IndexError. Without dim exact values for all shapes (C85_argmax_flat), right for rows (C85_row_partial). The full claim is false: C85_argmax_matrix_fails and C85_max_matrix_fails (every matrix), C85_column_wrong, C85_max_column, C85_scalar_fails, C85_ties_wrong."
],
"C86": [
"proved",
"Two-party sessions with function secret sharing, networks of Linear layers and ReLU of any depth: unless a wrapping truncation or the output -2^31 of function secret sharing is recorded, every opened output is within net.error of torch's (C86_inference), and a class that leads by more than the errors is predicted (C86_same_class). Weights and inputs are exact rational numbers; the numbers must fit (Net.Fits)."
],
"C87": [
"proved",
"Any number of rounds in one session, each with its own computation and data, is gradient descent (C87_training, C87_round, with exact arithmetic, where the losses are differentiable as for C48); a parameter not used for the loss makes step raise TypeError (C87_unused_parameter); linear regression computes the least mean squares rule (C87_regression). Rounding errors of training are not estimated."
],
"C88": [
"partial",
"What a party is shown comes, for every secret, from exactly one choice of the masks of the other party (C88_party_view_partial; the part of the keys beyond the masks is assumed to hide them). The caller of fss_op opens the difference of the secrets plus two 32 bit masks modulo 2^64 and so learns the difference up to 2^33 quanta (C88_caller_learns_difference, C88_caller_tells_apart): there the claim is false."
],
"C89": [
"proved",
"the uuids drawn by uuid4 are assumed to be different; random shares of zero are not part of it"
],
"C90": [
"proved",
""
],
"C91": [
"proved",
"additive shares: two parties with any encoder, three or more under the assumptions of C81 (binary encoder of at most 24 bits); replicated shares: three parties, semi-honest, ring 2^64."
],
"C92": [
"proved",
"The calls of the loop are unrolled by hand, for x @ w and for a Linear layer with a bias; the estimate of the error is the one of C81."
],
"C93": [
"partial",
"two parties: programs with shapes and fixed point numbers; any number of parties if each divides its own share. Missing: the code draws from half of the ring (C04, C19), and three or more parties open more when they divide (C79)."
],
"C94": [
"proved",
"counted over the draws that torch can make; the uniform and independent choice of these numbers is assumed. The shares of the triples are not part of the statement on opened values."
],
"C95": [
"partial",
"For both security types, whatever the program; drawn from the whole ring (the code draws from half of it), for public operands that do not enlarge the secret they are added to."
],
"C96": [
"partial",
"All lies but those about triples and, for parties 0 and 1, about masked operands and about the shares that are truncated; there the code notices nothing (C96_triple_forged, C96_guess_forged, C96_truncation_forged). C96_accepted_product: a product accepted after lies about masked operands is the product of the factors as the lies change them."
],
"C97": [
"partial",
"Additive shares and semi-honest replicated shares in full; with malicious security the checks (C97_malicious_checked, C97_three_party_honest) but not the form of the result, where the claim is false (C97_malicious_nested)."
],
"C98": [
"partial",
"Round trip for all supported rings when the encodings fit the torch type of the ring (C98_round_trip_partial). Missing: numbers beyond it, where the code is wrong without an error; in the ring 2 with a scale nothing but 0 or one quantum comes back (C98_bit_ring_wrong, C98_one_in_bit_ring). Refusal of rings decided (C98_rings)."
],
"C99": [
"partial",
"Session and configuration for all nested expressions of additive shares, with exactly the ring that results (C99_session); all of the claim in the ring 2^64 (C99_default_ring_partial), for shares without a session when nothing is divided or transposed (C99_alone_partial), joining a session (C99_joins); replicated shares in every ring (C99_replicated). Missing: other rings after a forwarded method or a division of additive shares, where the code forgets the ring (C99_ring_forgotten), and replicated shares joining a session, which they do not (C99_replicated_not_joined)."
]
}