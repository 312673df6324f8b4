{"id": "C01", "title": "Fixed-point round trip loses less than one quantum", "statement": "Encoding a number with FixedPointEncoder(base, precision) and decoding the integer gives a number that has the same sign (or is 0), is never larger in absolute value, and differs from the original by strictly less than 1/base**precision. If the number is a multiple of 1/base**precision the result is exact. Encoding is odd (encode(-v) = -encode(v)) and monotone.", "quantifier": "all rational values, all bases >= 1 and all precisions (scale = base**precision)", "why_tests_cant": "there are infinitely many values and scales; a test samples a handful of floats with a tolerance and cannot show the bound, the rounding direction or monotonicity", "anchors": ["src/sympc/encoder/fp_encoder.py: FixedPointEncoder.encode, decode, precision/base setters"]}
{"id": "C02", "title": "Decoding is exact on every ring element", "statement": "FixedPointEncoder.decode(t) equals the rational t/base**precision exactly for every integer tensor t, negative values and exact negative multiples included, and re-encoding the decoded value gives back t. Decoding floating point input is refused with ValueError.", "quantifier": "all int64 tensors t, all bases >= 2 with any precision whose scale is below 2^63, and any base with precision 0", "why_tests_cant": "decode goes through floor/truncate corrections whose off-by-one cases sit at negative multiples of the scale; tests decode positive numbers only", "anchors": ["src/sympc/encoder/fp_encoder.py: FixedPointEncoder.decode"]}
{"id": "C03", "title": "Sharing then reconstructing returns the secret (additive sharing)", "statement": "For two or more parties, MPCTensor.generate_shares yields exactly one share per party, and adding the shares in the ring returns the encoded secret, whatever random values were drawn. With zero parties no share is made and with one party the call fails instead of exposing or losing the secret silently.", "quantifier": "all secrets, all numbers of parties, all draws of the random generator", "why_tests_cant": "the random draws and the number of parties range over huge sets; tests see one draw for 2, 3 or 5 parties", "anchors": ["src/sympc/tensor/mpc_tensor.py: MPCTensor.generate_shares, reconstruct", "src/sympc/tensor/share_tensor.py: ShareTensor.reconstruct, ShareTensor.__sub__"]}
{"id": "C04", "title": "Any n-1 additive shares are independent of the secret", "statement": "The joint view of any n-1 of the n parties after sharing a local secret has the same set (and number) of possible random draws for every secret, so the view tells nothing about the secret.", "quantifier": "all secrets, all numbers of parties n >= 2, every choice of the missing party, all views", "why_tests_cant": "secrecy is a statement about all draws and all pairs of secrets at once; no run of the code can exhibit or refute independence in general", "anchors": ["src/sympc/tensor/mpc_tensor.py: MPCTensor.generate_shares (random_ draws)", "src/sympc/utils/mpc_utils.py: generate_random_element"]}
{"id": "C05", "title": "Pseudo-random zero shares always add up to zero", "statement": "After setup_mpc, every collective call of przs_generate_random_share hands the parties values that add up to zero in the requested ring, no matter how many zero-share or random-share calls were made before, for which shapes and rings, and in which order the parties were served within a call.", "quantifier": "all numbers of parties, all seeds, all pseudo-random generators, all finite histories of collective calls with arbitrary shapes and rings", "why_tests_cant": "the property concerns generator state after an arbitrary history; tests make one or two calls", "anchors": ["src/sympc/session/session.py: Session._generate_random_share, przs_generate_random_share, init_generators", "src/sympc/session/session_manager.py: SessionManager._setup_przs"]}
{"id": "C06", "title": "Pseudo-random replicated shares stay consistent", "statement": "After setup_mpc for three parties, every collective call of prrs_generate_random_share gives the parties a valid replicated sharing: the second share of party i equals the first share of party i+1, after any history of collective calls.", "quantifier": "all seeds, all generators, all histories of collective calls, all rings and shapes", "why_tests_cant": "needs an invariant over generator states for unbounded histories", "anchors": ["src/sympc/session/session.py: prrs_generate_random_share", "src/sympc/session/session_manager.py: _setup_przs"]}
{"id": "C07", "title": "Secrets held by a remote party", "statement": "MPCTensor(secret=pointer, shape=...) builds shares that reconstruct to the encoded secret held by the remote party, when that party belongs to the session; if the holder is not one of the session's parties the call must not return a tensor that reconstructs to something else.", "quantifier": "all secrets, all holders, all numbers of parties, all generator states", "why_tests_cant": "depends on the zero-sharing for every history and on holders outside the session, which tests never try", "anchors": ["src/sympc/tensor/mpc_tensor.py: MPCTensor.__init__, generate_przs", "src/sympc/session/session.py: przs_generate_random_share"]}
{"id": "C08", "title": "Replicated sharing round trip", "statement": "Distributing n shares with ReplicatedSharedTensor.distribute_shares gives party r every share except share r-1 (mod n); reconstructing from the distributed shares, with semi-honest or with malicious security, returns the ring sum of the n shares.", "quantifier": "all share lists of any length n >= 2, all supported rings (2, 67, 2^8 .. 2^64), both security types", "why_tests_cant": "index arithmetic modulo n must hold for all n and all share values; tests use n = 2, 3, 5", "anchors": ["src/sympc/tensor/replicatedshare_tensor.py: distribute_shares, distribute_shares_to_party, reconstruct, __reconstruct_semi_honest, __reconstruct_malicious, shares_sum"]}
{"id": "C09", "title": "One lying party cannot change a maliciously secure opening", "statement": "With malicious security and at least three parties, if at most one party hands arbitrary shares to the reconstruction, then reconstruct either raises ValueError or returns the true secret.", "quantifier": "all numbers of parties >= 3, all share values, every corrupted party, every tampered value", "why_tests_cant": "quantifies over every possible lie of an adversary; tests try one tampering", "anchors": ["src/sympc/tensor/replicatedshare_tensor.py: __reconstruct_malicious, reconstruct"]}
{"id": "C10", "title": "Three-party malicious opening detects every lie", "statement": "With malicious security and exactly three parties, if one party hands any share that differs from the honest one, reconstruct raises ValueError.", "quantifier": "all share values, every corrupted party, every tampered value", "why_tests_cant": "quantifies over every possible lie of an adversary", "anchors": ["src/sympc/tensor/replicatedshare_tensor.py: __reconstruct_malicious"]}
{"id": "C11", "title": "Adding and subtracting secret tensors", "statement": "x + y and x - y on two MPCTensors of one session reconstruct to the ring sum and difference of what x and y reconstruct to, for additive shares and for replicated shares (including the xor ring and the prime ring), without changing x or y.", "quantifier": "all share values held by the parties, all numbers of parties, all rings", "why_tests_cant": "holds for every sharing, not only freshly made ones", "anchors": ["src/sympc/tensor/mpc_tensor.py: __apply_private_op", "src/sympc/tensor/share_tensor.py: add, sub, apply_function", "src/sympc/tensor/replicatedshare_tensor.py: __apply_private_op, get_op"]}
{"id": "C12", "title": "Adding and subtracting public values (additive sharing)", "statement": "x + p, x - p for a public number or tensor p reconstructs to the reconstruction of x plus or minus the encoding of p: the public value is used exactly once, by one party.", "quantifier": "all share values, all public values, all numbers of parties", "why_tests_cant": "tests with two or three parties and one value cannot show that exactly one party adds p for every n", "anchors": ["src/sympc/tensor/mpc_tensor.py: __apply_public_op", "src/sympc/tensor/share_tensor.py: sanity_checks, add, sub"]}
{"id": "C13", "title": "Adding and subtracting public values (replicated sharing)", "statement": "x + p, x - p on replicated shares changes the same share at every party that holds it and no other share, so the result is again a consistent replicated sharing and reconstructs to the reconstruction of x plus or minus p.", "quantifier": "all numbers of parties n >= 2, all ranks, all share values, all public values, all rings", "why_tests_cant": "index arithmetic on ranks for every n; tests use 2, 3 and 5 parties and do not check consistency of all copies", "anchors": ["src/sympc/tensor/replicatedshare_tensor.py: __apply_public_op", "src/sympc/tensor/mpc_tensor.py: __apply_public_op"]}
{"id": "C14", "title": "Subtracting a secret from a public value", "statement": "p - x reconstructs to (encoding of p) minus the reconstruction of x. In particular ReplicatedSharedTensor's reflected subtraction (p - share) must produce shares of p - x, not of x - p.", "quantifier": "all public values, all share values, all numbers of parties", "why_tests_cant": "sign errors in reflected operators are input dependent (0 and symmetric values hide them)", "anchors": ["src/sympc/tensor/replicatedshare_tensor.py: rsub", "src/sympc/tensor/mpc_tensor.py: rsub", "src/sympc/tensor/share_tensor.py: rsub"]}
{"id": "C15", "title": "Multiplying by a public integer", "statement": "Multiplying a secret by a public unscaled integer (or applying a public matrix) at every party reconstructs to the product with the reconstructed secret.", "quantifier": "all share values, all public values, all numbers of parties, mul and matmul", "why_tests_cant": "needs distributivity for every sharing and every n", "anchors": ["src/sympc/tensor/mpc_tensor.py: __apply_public_op", "src/sympc/tensor/share_tensor.py: mul, matmul", "src/sympc/tensor/replicatedshare_tensor.py: mul, matmul"]}
{"id": "C16", "title": "Shape operations commute with reconstruction", "statement": "Every forwarded method that moves or adds elements (t, view, reshape, flatten, sum, narrow, repeat, transpose, squeeze, unsqueeze, clone) applied to a secret tensor and then reconstructed equals the same method applied to the reconstructed tensor.", "quantifier": "all share values, all numbers of parties, every additive map on tensors (hence every such method, all arguments)", "why_tests_cant": "one algebraic reason covers every method, every argument and every sharing; tests sample method/argument pairs", "anchors": ["src/sympc/tensor/mpc_tensor.py: METHODS_FORWARD, hook_method", "src/sympc/tensor/share_tensor.py: hook_method", "src/sympc/tensor/replicatedshare_tensor.py: hook_method"]}
{"id": "C17", "title": "stack and cat agree with torch", "statement": "stack(list, dim) and cat(list, dim) of secret tensors reconstruct to torch.stack / torch.cat of the reconstructed tensors for every dim.", "quantifier": "all lists of tensors, all share values, all dims, all numbers of parties", "why_tests_cant": "the value of dim and the sharing both vary; the tests use dim 0", "anchors": ["src/sympc/tensor/static.py: stack, stack_share_tensor, cat, cat_share_tensor"]}
{"id": "C18", "title": "SPDZ product of two secrets", "statement": "With one correct Beaver triple per multiplication, the SPDZ protocol's shares add up to op(x, y) of the two reconstructed secrets (before truncation), for element-wise, broadcasting, matrix and convolution products.", "quantifier": "all numbers of parties n >= 1, all sharings of x and y, all triples, all bi-additive operations", "why_tests_cant": "needs algebra over all triples and sharings; tests see one random triple", "anchors": ["src/sympc/protocol/spdz/spdz.py: mul_master, spdz_mask, mul_parties", "src/sympc/tensor/mpc_tensor.py: __apply_private_op"]}
{"id": "C19", "title": "The opened masks reveal nothing about the operands", "statement": "For fixed secrets the pair (x-a, y-b) opened by SPDZ is in bijection with the triple's randomness (a, b), so every opened pair is possible, in exactly one way, for every pair of secrets.", "quantifier": "all secrets, all opened values", "why_tests_cant": "secrecy compares all runs for all secrets", "anchors": ["src/sympc/protocol/spdz/spdz.py: spdz_mask, mul_master", "src/sympc/protocol/beaver/beaver.py: _get_triples"]}
{"id": "C20", "title": "Every Beaver triple is used by exactly one multiplication, and by all parties alike", "statement": "For every sequence of multiplications (any mix of operations and shapes, with provisioning ahead of time or on demand), the mask step and the multiplication step of one product use the same triple, all parties use the same triple, and no triple serves two products.", "quantifier": "all finite histories of provisioning and multiplications, all operations and shapes, any number of parties", "why_tests_cant": "reuse of a triple leaks secrets but yields correct results, so no functional test can notice it", "anchors": ["src/sympc/protocol/spdz/spdz.py: spdz_mask, mul_parties, mul_master", "src/sympc/protocol/beaver/beaver.py: *_store_add, *_store_get", "src/sympc/store/crypto_store.py: CryptoStore"]}
{"id": "C21", "title": "Crypto store behaves as independent first-in first-out queues", "statement": "For each operation and pair of shapes the crypto store hands primitives out in the order they were added, a removing read removes exactly one, a non-removing read none, other keys are untouched, and a read from an empty or missing queue raises EmptyPrimitiveStore.", "quantifier": "all histories of additions and reads over all keys", "why_tests_cant": "statement over unbounded histories; tests add one or two primitives", "anchors": ["src/sympc/protocol/beaver/beaver.py: mul_store_add, mul_store_get, matmul_store_add, matmul_store_get, conv2d_store_add, conv2d_store_get", "src/sympc/store/crypto_store.py: populate_store, get_primitives_from_store"]}
{"id": "C22", "title": "Triple generation never hands out a wrong triple", "statement": "The sanity check inside triple generation raises ValueError whenever the generated c differs from op(a, b) in at least one position.", "quantifier": "all triples of tensors of any size", "why_tests_cant": "faulty triples do not occur in tests; which positions differ ranges over all subsets", "anchors": ["src/sympc/protocol/beaver/beaver.py: _get_triples"]}
{"id": "C23", "title": "Convolution triples fit the convolution they are used for", "statement": "A triple taken from the store for a convolution was generated with the same stride, padding and dilation as the convolution that uses it.", "quantifier": "all histories of convolutions with arbitrary shapes and keyword arguments", "why_tests_cant": "needs histories that mix keyword arguments with equal shapes", "anchors": ["src/sympc/protocol/beaver/beaver.py: conv2d_store_add, conv2d_store_get, get_triples_conv2d", "src/sympc/protocol/spdz/spdz.py: mul_master"]}
{"id": "C24", "title": "Two-party local truncation is off by at most one quantum", "statement": "Dividing a two-party additive sharing locally by a positive integer yields shares that reconstruct to within 1 of the true quotient whenever the two shares do not wrap around the ring; in the wrap-around case the error is exactly about 2**64/divisor.", "quantifier": "all pairs of 64-bit shares, all positive divisors", "why_tests_cant": "the failing share pairs are a tiny fraction of 2^128 pairs, random tests miss them", "anchors": ["src/sympc/protocol/spdz/spdz.py: mul_parties (//= scale), public_divide", "src/sympc/tensor/share_tensor.py: div"]}
{"id": "C25", "title": "Product of two fixed-point secrets (two parties)", "statement": "x * y for two-party additive sharing reconstructs to a number within two quanta of the exact product of the two represented numbers, provided the shares of the untruncated product do not wrap.", "quantifier": "all secrets, all scales, all sharings, all Beaver triples", "why_tests_cant": "combines algebra over all triples with a truncation bound for all shares", "anchors": ["src/sympc/protocol/spdz/spdz.py: mul_parties, mul_master", "src/sympc/tensor/mpc_tensor.py: mul"]}
{"id": "C26", "title": "Wrap counting is exact", "statement": "count_wraps(list) returns the number w with (sum of the shares as integers) = (ring sum) + w * 2**64, for every list of int64 shares.", "quantifier": "all lists of 64-bit integers of any length", "why_tests_cant": "the edge value -2**63 is never drawn by tests", "anchors": ["src/sympc/utils/mpc_utils.py: count_wraps"]}
{"id": "C27", "title": "Public division with three or more parties", "statement": "x / d for a public integer d and at least three parties reconstructs to within n quanta (plus four for every wrap-around of the shares, when the divisor does not divide 2**62) of the quotient, with the wrap-around correction computed from the random-wrap primitive, whenever x + r is not itself ambiguous.", "quantifier": "all numbers of parties >= 3, all sharings, all masks r, all divisors", "why_tests_cant": "wrap-around events of random shares cannot be enumerated", "anchors": ["src/sympc/protocol/spdz/spdz.py: public_divide, div_wraps", "src/sympc/protocol/beaver/beaver.py: count_wraps_rand"]}
{"id": "C28", "title": "Dividing does not change the operand", "statement": "After z = x / d the tensor x still reconstructs to its old value.", "quantifier": "all numbers of parties, all sharings, all divisors", "why_tests_cant": "aliasing effects are invisible unless a test reuses the operand, and depend on the number of parties", "anchors": ["src/sympc/protocol/spdz/spdz.py: public_divide, div_wraps", "src/sympc/tensor/share_tensor.py: div"]}
{"id": "C29", "title": "Falcon semi-honest product of two secrets", "statement": "x * y for three-party replicated sharing (before truncation) gives a consistent replicated sharing of the product, in arithmetic rings, in the bit ring and in the prime ring, for element-wise and matrix products, whatever zero-masks are drawn.", "quantifier": "all replicated sharings, all zero-masks summing to zero, all bi-additive operations", "why_tests_cant": "nine cross products for all inputs and all masks; tests use single draws", "anchors": ["src/sympc/protocol/falcon/falcon.py: mul_master, mul_semi_honest, multiplication_protocol, compute_zvalue_and_add_mask"]}
{"id": "C30", "title": "Falcon malicious multiplication accepts honest runs", "statement": "With malicious security and correct triples, an honest run of x * y is never aborted and returns the same product as the semi-honest protocol.", "quantifier": "all sharings, all triples, all masks", "why_tests_cant": "a spurious abort depends on the randomness", "anchors": ["src/sympc/protocol/falcon/falcon.py: mul_malicious, triple_verification, falcon_mask"]}
{"id": "C31", "title": "Falcon malicious multiplication aborts on wrong products", "statement": "With malicious security, if the shares of z do not reconstruct to x*y, or the triple (a,b,c) has c != a*b, by an error that does not exactly cancel, triple verification raises ValueError; it passes exactly when (z - xy) = (c - ab) in the ring.", "quantifier": "all sharings, all errors added to the product shares, all triples", "why_tests_cant": "adversarial errors range over the whole ring", "anchors": ["src/sympc/protocol/falcon/falcon.py: mul_malicious, triple_verification"]}
{"id": "C32", "title": "ABY3 truncation is off by at most one quantum", "statement": "ABY3.truncate on a three-party replicated sharing returns a consistent replicated sharing whose reconstruction differs from the quotient of the reconstructed value by the scale (rounded down for base 2, toward zero for other bases) by at most one quantum when the two summands do not wrap, which happens for few of the random numbers (at most |x| + 1 of 2**64).", "quantifier": "all replicated sharings, all random masks r, all precisions", "why_tests_cant": "failure needs particular share values", "anchors": ["src/sympc/protocol/aby3/aby3.py: truncation_algorithm1, truncate"]}
{"id": "C33", "title": "Bit injection preserves the bit", "statement": "ABY3.bit_injection of a shared bit gives a replicated sharing, in the requested ring (session ring or prime 67), that reconstructs to the same bit.", "quantifier": "all sharings of a bit, all target rings, all masks", "why_tests_cant": "eight share combinations times all masks and rings; tests try one", "anchors": ["src/sympc/protocol/aby3/aby3.py: local_decomposition, bit_injection", "src/sympc/tensor/mpc_tensor.py: __apply_private_op (xor)"]}
{"id": "C34", "title": "Bit decomposition yields the two's complement bits", "statement": "ABY3.bit_decomposition of a shared number returns one shared bit per ring bit, and bit i reconstructs to bit i of the reconstructed number.", "quantifier": "all replicated sharings, all ring widths", "why_tests_cant": "carry chains of any length; tests use a few values", "anchors": ["src/sympc/protocol/aby3/aby3.py: full_adder, bit_decomposition, bit_decomposition_ttp", "src/sympc/tensor/replicatedshare_tensor.py: bit_extraction, rshift"]}
{"id": "C35", "title": "Private comparison result depends only on the operands", "statement": "Falcon.private_compare(x, r) reconstructs to 1 exactly when x >= r for every pair, whatever random bit and random multipliers are drawn.", "quantifier": "all bit widths, all x, all r, all random bits and multipliers", "why_tests_cant": "the result must not depend on hidden randomness; a test sees one draw", "anchors": ["src/sympc/protocol/falcon/falcon.py: private_compare, _random_prime_group"]}
{"id": "C36", "title": "Selecting between two shared values", "statement": "Falcon.select_shares(x, y, b) reconstructs to x where the shared bit b is 0 and to y where it is 1.", "quantifier": "all sharings, all masks, all elements", "why_tests_cant": "combines bit injection and multiplication for all sharings", "anchors": ["src/sympc/protocol/falcon/falcon.py: select_shares", "src/sympc/protocol/aby3/aby3.py: bit_injection"]}
{"id": "C37", "title": "Arithmetic in the prime ring", "statement": "addmodprime, submodprime and mulmodprime return the canonical residue modulo 67 of the sum, difference and product of any two canonical residues despite 8/16-bit intermediate types, and the result is canonical again.", "quantifier": "all pairs of residues (and: behaviour on non-canonical bytes)", "why_tests_cant": "overflow of the intermediate types depends on the operands", "anchors": ["src/sympc/tensor/replicatedshare_tensor.py: addmodprime, submodprime, mulmodprime, get_op"]}
{"id": "C38", "title": "FSS equality and comparison", "statement": "x == y and x <= y on two-party sharings reconstruct to 1 exactly when the represented numbers are equal / ordered so, and to 0 otherwise.", "quantifier": "all pairs of secrets, all sharings, all FSS masks", "why_tests_cant": "wrong answers appear only for differences beyond 2^31 quanta, which tests do not use", "anchors": ["src/sympc/protocol/fss/fss.py: mask_builder, evaluate, fss_op, eq, le", "src/sympc/tensor/mpc_tensor.py: le, ge, lt, gt, eq, ne"]}
{"id": "C39", "title": "Derived comparisons agree with each other", "statement": "lt, gt, ge and ne are consistent with le and eq: x < y is not (y <= x), x > y is not (x <= y), x >= y is y <= x and x != y is 1 - (x == y), on all fixed-point values.", "quantifier": "all pairs of represented fixed-point numbers, any correct le/eq", "why_tests_cant": "relations between operators over all pairs", "anchors": ["src/sympc/tensor/mpc_tensor.py: le, ge, lt, gt, eq, ne"]}
{"id": "C40", "title": "Oblivious sort", "statement": "sort(list) returns a list with the same multiset of values in ascending order (descending when asked), for any length.", "quantifier": "all lists of any length, any comparison results consistent with the values", "why_tests_cant": "all lengths and orders; tests sort one short list", "anchors": ["src/sympc/algorithms/algorithms.py: sort"]}
{"id": "C41", "title": "argmax and max", "statement": "x.argmax() returns the index of the maximum and x.max() the maximum; if the maximum is not unique the call must raise or still return a correct index/value.", "quantifier": "all vectors of any length, including ties, argument dim None or given", "why_tests_cant": "ties and multi-dimensional inputs are input dependent", "anchors": ["src/sympc/tensor/static.py: argmax, helper_argmax, max, max_mpc, helper_argmax_pairwise"]}
{"id": "C42", "title": "Power by squaring", "statement": "x ** k for a non-negative integer k reconstructs to the k-fold product; negative powers raise RuntimeError.", "quantifier": "all exponents, all secrets, any associative product", "why_tests_cant": "all exponents need induction", "anchors": ["src/sympc/tensor/mpc_tensor.py: pow"]}
{"id": "C43", "title": "parallel_execution is schedule independent", "statement": "parallel_execution(fn, parties)(args, kwargs) returns fn's result for argument tuple i at position i, whatever the order in which workers finish.", "quantifier": "all argument lists, all completion orders", "why_tests_cant": "thread schedules cannot be enumerated by tests", "anchors": ["src/sympc/utils/utils.py: parallel_execution"]}
{"id": "C44", "title": "Tensors of different sessions never mix", "statement": "A binary operation between two MPCTensors of different sessions or with different share types raises an error instead of producing a tensor; between shares of different party sessions it raises ValueError.", "quantifier": "all tensors, all operations, all sessions", "why_tests_cant": "all pairs of sessions and operations", "anchors": ["src/sympc/tensor/mpc_tensor.py: __apply_private_op", "src/sympc/tensor/share_tensor.py: sanity_checks", "src/sympc/tensor/replicatedshare_tensor.py: sanity_checks"]}
{"id": "C45", "title": "Session construction guards", "statement": "A Session is only created with a registered protocol and a supported ring; malicious security is refused for one or two parties; using a session before setup_mpc raises ValueError.", "quantifier": "all protocols, ring sizes, numbers of parties", "why_tests_cant": "decision logic over all combinations", "anchors": ["src/sympc/session/session.py: Session.__init__", "src/sympc/utils/mpc_utils.py: get_type_from_ring", "src/sympc/tensor/mpc_tensor.py: MPCTensor.__init__"]}
{"id": "C46", "title": "Setting a session up again", "statement": "Calling setup_mpc on a session leaves it with exactly one remote session per party and generators forming a ring, however often it is called.", "quantifier": "all numbers of calls and of parties", "why_tests_cant": "statement about repeated calls", "anchors": ["src/sympc/session/session_manager.py: setup_mpc, _setup_przs"]}
{"id": "C47", "title": "share() builds tensors for the session asked for", "statement": "tensor.share(parties=..., **kwargs) uses a session with the given parties and keyword arguments.", "quantifier": "all call histories", "why_tests_cant": "depends on the history of earlier share calls through a cache", "anchors": ["src/sympc/tensor/mpc_tensor.py: share"]}
{"id": "C48", "title": "Gradients by backpropagation", "statement": "After loss.backward() each leaf tensor holds the sum over all paths of the products of local derivatives, i.e. the derivative of the loss, for every computation graph built from supported operations.", "quantifier": "all finite computation graphs and values", "why_tests_cant": "graphs are unbounded; tests use two or three nodes", "anchors": ["src/sympc/tensor/mpc_tensor.py: backward, __getattribute__", "src/sympc/grads/grad_functions.py: Grad*, forward"]}
{"id": "C49", "title": "Gradients of broadcast operands have the operand's shape", "statement": "Reducing a gradient of the broadcast result to the operand's shape sums exactly over the broadcast copies: it is the adjoint of broadcasting.", "quantifier": "all shapes that broadcast, all gradients", "why_tests_cant": "all shapes of any rank", "anchors": ["src/sympc/grads/grad_functions.py: _reverse_broadcast"]}
{"id": "C50", "title": "Logged primitive requests can be replayed", "statement": "Replaying the primitive log of a computation provisions, for every key, exactly as many primitives as the computation asked for, so a second run never has to generate on demand.", "quantifier": "all computations (sequences of requests)", "why_tests_cant": "all request sequences", "anchors": ["src/sympc/store/crypto_primitive_provider.py: start_logging, stop_logging, generate_primitive_from_dict, generate_primitives"]}
{"id": "C51", "title": "Newton reciprocal", "statement": "Each step of the Newton iteration used by reciprocal squares the relative error (1 - a x' = (1 - a x)^2), so for 0 < a x0 < 2 the error after k steps is (1 - a x0)^(2^k). With the start value of the library ten steps give a relative error of 10^-8 for 1/100 <= |x| <= 500; the method \"log\" gives one percent for 1/100 <= |x| <= 100.", "quantifier": "all positive a, all start values, all step counts", "why_tests_cant": "convergence for all inputs and steps", "anchors": ["src/sympc/approximations/reciprocal.py: reciprocal (NR, log)"]}
{"id": "C52", "title": "Exponential and logarithm approximations", "statement": "exp uses (1 + x/2^k)^(2^k) computed by k squarings, exactly; the logarithm's Householder step is a fixed point at the logarithm, and log with its default parameters is off by at most 1/20 for 1/100 <= x <= 100.", "quantifier": "all inputs, all iteration counts", "why_tests_cant": "all inputs and iteration counts", "anchors": ["src/sympc/approximations/exponential.py: exp", "src/sympc/approximations/log.py: log"]}
{"id": "C53", "title": "Polynomial activations", "statement": "The Chebyshev recurrence used by tanh yields the odd Chebyshev polynomials; hardtanh clamps to the interval exactly; sigmoid of -x and x add up to 1 in the exp based method.", "quantifier": "all inputs, all term counts", "why_tests_cant": "all degrees and inputs", "anchors": ["src/sympc/approximations/tanh.py", "src/sympc/approximations/sigmoid.py"]}
{"id": "C54", "title": "Bits xor in any ring", "statement": "xor of two shared bits reconstructs to the xor of the bits in the bit ring, in the prime ring and in the session ring.", "quantifier": "all sharings of bits, all masks", "why_tests_cant": "all sharings", "anchors": ["src/sympc/tensor/mpc_tensor.py: __apply_private_op (xor), xor"]}
{"id": "C55", "title": "ReLU and max pooling", "statement": "relu(x) reconstructs to max(x,0); max_pool2d returns the maximum of every window, and its gradient goes to the places of the maxima.", "quantifier": "all inputs, kernel sizes, strides, paddings", "why_tests_cant": "window arithmetic for all parameters", "anchors": ["src/sympc/module/nn/functional.py: relu, max_pool2d, helper_max_pool2d_reshape"]}
{"id": "C56", "title": "Linear layers and SGD act as their clear-text counterparts", "statement": "A shared Linear layer maps x to x W^T + b of the reconstructed parameters (up to truncation), and an SGD step changes each parameter by -lr * grad.", "quantifier": "all parameters and inputs", "why_tests_cant": "all values and sharings", "anchors": ["src/sympc/module/nn/linear.py: Linear.forward", "src/sympc/optim/sgd.py: SGD.step"]}
{"id": "C57", "title": "A party's session copy keeps the session's ring", "statement": "The session sent to each party has the ring size, tensor type and value range of the session it was copied from.", "quantifier": "all ring sizes", "why_tests_cant": "all supported rings", "anchors": ["src/sympc/session/session.py: copy"]}
{"id": "C58", "title": "Protocol registry", "statement": "Registering a protocol class makes it available under its name; a class without the required attributes or a name already taken raises ValueError and leaves the registry unchanged.", "quantifier": "all registration sequences", "why_tests_cant": "all sequences of registrations", "anchors": ["src/sympc/protocol/protocol.py: Protocol.__init_subclass__"]}
{"id": "C59", "title": "FSS primitives are handed out once", "statement": "Every comparison takes the number of FSS keys it needs, in order, and no key is given to two comparisons.", "quantifier": "all histories of provisioning and comparisons", "why_tests_cant": "key reuse leaks but computes correctly", "anchors": ["src/sympc/protocol/fss/fss.py: _add_primitive, _get_primitive"]}
{"id": "C60", "title": "The ring of a maliciously secure opening is not up to one party", "statement": "With malicious security and three or more parties a single corrupted party cannot make an opening accept a wrong value by claiming another ring size for its share.", "quantifier": "all share values, every corrupted party, every claimed ring size", "why_tests_cant": "tests never let a party send a share tensor with a forged ring size", "anchors": ["src/sympc/tensor/replicatedshare_tensor.py: __reconstruct_malicious, shares_sum"]}
{"id": "C61", "title": "Xor of a shared bit with a public bit", "statement": "x ^ p for a shared bit x and a public bit p reconstructs to the xor of the two bits, for additive and for replicated sharing.", "quantifier": "all sharings of a bit, all public bits, all rings, all scales", "why_tests_cant": "the additive case depends on the bits of a random share", "anchors": ["src/sympc/tensor/share_tensor.py: ShareTensor.xor", "src/sympc/tensor/replicatedshare_tensor.py: xor", "src/sympc/tensor/mpc_tensor.py: __apply_public_op"]}
{"id": "C62", "title": "Softmax", "statement": "The values of softmax along a dimension are not negative, add up to 1, and are proportional to the exponentials of the elements; log_softmax is close to the logarithm of the softmax.", "quantifier": "all tensors, all dimensions", "why_tests_cant": "ties and far apart elements do not appear in tests", "anchors": ["src/sympc/approximations/softmax.py: softmax, log_softmax", "src/sympc/tensor/static.py: max"]}
{"id": "C63", "title": "Private convolutions", "statement": "conv2d and conv_transpose2d of a secret image with a secret kernel reconstruct to the convolution of the two, plus the bias, with torch's shape, for every stride, padding, dilation and number of groups that torch accepts.", "quantifier": "all images, kernels and biases, all shapes and arguments, all sharings and triples", "why_tests_cant": "tests use a few images and arguments; the result depends on the triple in stock and on the random shares", "anchors": ["src/sympc/tensor/mpc_tensor.py: conv2d, conv_transpose2d, __apply_op, __apply_private_op, _get_shape", "src/sympc/protocol/spdz/spdz.py: mul_master"]}
{"id": "C64", "title": "Sharing a network and getting it back", "statement": "share(module, session) followed by reconstruct gives a network with the same layers, attributes and names and with the same parameters up to the rounding of the encoding; eq_close tells whether two layers have parameters that are close.", "quantifier": "all networks of linear, convolution and flatten layers, all parameters, local or at a party, all sessions and randomness", "why_tests_cant": "a test reconstructs a few small networks; layers without bias, with groups, or without parameters are further cases", "anchors": ["src/sympc/module/__init__.py: share, reconstruct, copy_additional_attributes", "src/sympc/module/nn/linear.py: Linear.share_state_dict, reconstruct_state_dict, get_torch_module", "src/sympc/module/nn/conv.py: Conv2d.share_state_dict, reconstruct_state_dict, get_torch_module", "src/sympc/module/nn/smpc_module.py: eq_close"]}
{"id": "C65", "title": "A shared convolution layer computes the layer's convolution", "statement": "The forward pass of a shared Conv2d layer is the convolution with the stride, padding, dilation and groups of the torch layer it was made from, whoever holds that layer, and its parameters can be trained like those of a Linear layer.", "quantifier": "all attributes, weights, biases and images, all holders of the layer", "why_tests_cant": "tests use a local layer and attributes close to the defaults; a remote layer needs another path", "anchors": ["src/sympc/module/nn/conv.py: Conv2d.forward, set_additional_attributes, share_state_dict", "src/sympc/module/__init__.py: ADDITIONAL_ATTRIBUTES, copy_additional_attributes, share"]}
{"id": "C66", "title": "Secret tensors have torch's shapes", "statement": "A program of sums, differences, products, matrix products and forwarded methods (t, transpose, reshape, sum, squeeze, repeat and so on) on secret tensors and public operands reconstructs to the tensors that torch computes in the clear, with torch's broadcasting; the attribute shape and len() tell the shape of that tensor, and the program raises exactly when torch does.", "quantifier": "all programs, all shapes, all values, all sharings among two or more parties, all triples", "why_tests_cant": "tests apply single operations to a few shapes; shares of different shapes arise only from some sequences of operations and go unnoticed until a later operation", "anchors": ["src/sympc/tensor/mpc_tensor.py: __apply_op, __apply_private_op, __apply_public_op, _get_shape, hook_method, hook_property, __len__, isub, truediv", "src/sympc/protocol/spdz/spdz.py: mul_master, mul_parties", "src/sympc/protocol/beaver/beaver.py: _get_triples, mul_store_get"]}
{"id": "C67", "title": "Equality of sessions and shares", "statement": "Two sessions are equal exactly when they agree on everything except identity, description, tags, parties, store, generators and pointers; two shares are equal exactly when they have the same elements, scale and ring and do not belong to different sessions; both equalities are equivalences.", "quantifier": "all sessions, all shares of all shapes, additive and replicated", "why_tests_cant": "tests compare a few equal and unequal objects; broadcasting and missing session identifiers make further cases", "anchors": ["src/sympc/session/session.py: Session.__eq__, NOT_COMPARE", "src/sympc/tensor/share_tensor.py: __eq__, __gt__, __lt__", "src/sympc/tensor/replicatedshare_tensor.py: eq", "src/sympc/protocol/fss/fss.py: __eq__", "src/sympc/protocol/aby3/aby3.py: __eq__", "src/sympc/protocol/falcon/falcon.py: __eq__"]}
{"id": "C68", "title": "Registered functions and delivery of primitives", "statement": "A name stands for the generator, adder or getter first registered under it and a second registration raises ValueError; generate_primitives gives each party's store exactly that party's primitives, with shares tagged with that party's session; a call that the provider refuses (unknown name, no list, wrong number of parties) or that finds no adder changes no store; a tensor class never replaces an attribute of its own by a forwarded method or property.", "quantifier": "all sequences of registrations, all generators, adders and stores, any number of parties, all classes and lists of forwarded names", "why_tests_cant": "tests register one or two names and populate one store; failures while a delivery is under way are not exercised", "anchors": ["src/sympc/store/__init__.py: register_primitive_generator, register_primitive_store_add, register_primitive_store_get", "src/sympc/store/crypto_store.py: populate_store, get_primitives_from_store", "src/sympc/store/crypto_primitive_provider.py: generate_primitives, _transfer_primitives_to_parties", "src/sympc/tensor/tensor.py: SyMPCTensor.__new__"]}
{"id": "C69", "title": "Loss, and a public number divided by a secret", "statement": "mse_loss(pred, target) reconstructs to the mean of the squared differences over all elements, as in torch, or to their sum if reduction is sum, and raises ValueError for any other reduction; y / x for a public number y and a secret x reconstructs to the quotient.", "quantifier": "all predictions and targets of all shapes, all public numbers, all secrets that are not 0", "why_tests_cant": "the error of the fixed-point numbers and of the reciprocal depends on the values; tests use a few tensors with few elements", "anchors": ["src/sympc/module/nn/functional.py: mse_loss", "src/sympc/tensor/mpc_tensor.py: rtruediv"]}
{"id": "C70", "title": "A public matrix times a secret matrix", "statement": "y @ x for a public y and a secret x reconstructs to the matrix product, up to the rounding of the encoding of y and of one division by the scale, with any number of parties.", "quantifier": "all matrices, all sharings among two or more parties, all random masks", "why_tests_cant": "the result depends on the random shares; a product whose shares wrap around is too rare for tests", "anchors": ["src/sympc/tensor/mpc_tensor.py: rmatmul, truediv", "src/sympc/tensor/share_tensor.py: rmatmul, matmul, sanity_checks", "src/sympc/protocol/spdz/spdz.py: public_divide"]}
{"id": "C71", "title": "Local methods of replicated shares", "statement": "Dividing the replicated shares of a secret by an integer, shifting them to the right, multiplying them by a public matrix and concatenating them leaves consistent sharings, which open to the quotient (up to one quantum per party), the product and the concatenation of the secrets; operands of another type or out of range raise ValueError.", "quantifier": "all secrets and sharings, any number of parties, all divisors, shifts, matrices and lists of tensors", "why_tests_cant": "tests divide and shift shares that do not wrap around, and never open the result of a concatenation in another ring", "anchors": ["src/sympc/tensor/replicatedshare_tensor.py: truediv, rshift, matmul", "src/sympc/tensor/static.py: cat, cat_replicatedShare_tensor"]}
{"id": "C72", "title": "Binary digits of a tensor", "statement": "decompose(tensor, ring_size) gives the binary digits of every element, lowest first, as many as the ring has.", "quantifier": "all elements of all rings", "why_tests_cant": "the division is done in float32, which is exact for the small numbers of tests only", "anchors": ["src/sympc/utils/mpc_utils.py: decompose, get_nr_bits"]}
{"id": "C73", "title": "Whole computations are computed correctly", "statement": "Any sequence of operations on secrets (making secrets, sums, differences and products of secrets and with public values, methods that the parties apply to their shares) runs without an exception for any number of parties, and every tensor made on the way reconstructs to what the same computation gives on the encoded numbers; with precision 0 results in the range of int64 are the exact integers, even after earlier results that were out of range.", "quantifier": "all programs, all secrets and public values, all random numbers, any number of parties", "why_tests_cant": "tests run single operations and a few chains on samples; that errors do not build up over a chain of products with fresh triples is a statement about all programs", "anchors": ["src/sympc/tensor/mpc_tensor.py: MPCTensor", "src/sympc/protocol/spdz/spdz.py: mul_master, public_divide", "src/sympc/store/crypto_store.py: CryptoStore"]}
{"id": "C74", "title": "Whole computations show nothing but their results", "statement": "In a computation with additive shares, all that the parties but one hold and see (their shares of secrets and triples, and the values opened in products) is independent of the secrets, and opening a result adds its value only.", "quantifier": "all programs, all secrets, all views, any number of parties, any honest party", "why_tests_cant": "independence is about the distribution over all random numbers, not about values of a run", "anchors": ["src/sympc/tensor/mpc_tensor.py: MPCTensor", "src/sympc/protocol/spdz/spdz.py: mul_master", "src/sympc/protocol/beaver/beaver.py: _get_triples"]}
{"id": "C75", "title": "Whole computations on replicated shares are computed correctly", "statement": "For every program built from MPCTensor(secret=...), +, -, * (between secrets and with public operands) and forwarded tensor methods in a three-party Falcon session, semi-honest or malicious, the run raises nothing, and without scaling every tensor of the program reconstructs to what the same program computes on the plain encoded integers, whatever random numbers the parties draw.", "quantifier": "for all programs, secrets, shapes, random draws and both security levels", "why_tests_cant": "Tests run one operation with one seed; the claim is about every composition and every draw, including draws for which the zero shares, triples and truncation masks wrap around.", "anchors": ["src/sympc/tensor/mpc_tensor.py: MPCTensor", "src/sympc/protocol/falcon/falcon.py: Falcon.mul_master", "src/sympc/protocol/aby3/aby3.py: ABY3.truncate", "src/sympc/session/session.py: przs_generate_random_share"]}
{"id": "C76", "title": "Whole computations on replicated shares show one party nothing about the secrets", "statement": "In a three-party Falcon session, all that one party draws, holds and receives while a program runs (its shares of the secrets and of the results, its masks, its parts of the triples, the opened differences) is distributed independently of the secrets, and opening a result shows nothing but its value.", "quantifier": "for all programs, all pairs of secrets, each party, any scale and both security levels", "why_tests_cant": "A statement about the distribution of views of a whole run; tests see one view at a time and cannot compare distributions for all secrets.", "anchors": ["src/sympc/protocol/falcon/falcon.py: Falcon.mul_master, Falcon.falcon_mask", "src/sympc/protocol/aby3/aby3.py: ABY3.truncate", "src/sympc/tensor/mpc_tensor.py: generate_shares"]}
{"id": "C77", "title": "tanh by Chebyshev polynomials is accurate and keeps the positions of the elements", "statement": "tanh(x, method='chebyshev') returns a tensor of the shape of x whose element at each position is the hyperbolic tangent of the element of x at that position, up to a small error for elements between -1 and 1 and always between -1 and 1; chebyshev_series returns the coefficients of the Chebyshev sum that agrees with the function at all nodes, exactly for polynomials of degree below the number of terms; sigmoid(x, method='chebyshev') is as accurate for elements between -2 and 2.", "quantifier": "for all tensors of any number of dimensions with any elements; for chebyshev_series all functions, widths and numbers of terms", "why_tests_cant": "No test calls this method; the error bound holds for a continuum of inputs, and the coefficients are right for infinitely many functions.", "anchors": ["src/sympc/approximations/tanh.py: tanh, chebyshev_series, _chebyshev_polynomials, hardtanh", "src/sympc/approximations/sigmoid.py: sigmoid"]}
{"id": "C78", "title": "Whole fixed point computations are accurate", "statement": "For every program built from MPCTensor(secret=...), +, -, * (between secrets and with public operands) and forwarded tensor methods, with scaled values in a two-party session, a three-party Falcon session or an additive session of three or more parties with a binary encoder of at most 24 bits, every tensor of the program decodes to the true real value within an error that can be computed in advance from the program and the inputs, provided the values fit the ring and no truncation wraps.", "quantifier": "for all programs, all secrets and public values, all random draws, shapes, bases and precisions", "why_tests_cant": "Tests check single operations against a tolerance; how truncation and encoding errors add up over every composition of operations is a statement about all programs and all draws.", "anchors": ["src/sympc/tensor/mpc_tensor.py: MPCTensor", "src/sympc/protocol/spdz/spdz.py: mul_master, public_divide", "src/sympc/protocol/aby3/aby3.py: ABY3.truncate", "src/sympc/encoder/fp_encoder.py: FixedPointEncoder"]}
{"id": "C79", "title": "Dividing a secret by a public number shows the parties nothing about it", "statement": "When a secret shared among three or more parties is divided by a public integer, all that any coalition of all but one of the parties holds and receives (their shares of the secret, their parts of the provider's primitives, the shares that the orchestrator distributes and the public operands of the steps) is distributed independently of the secret. The same holds for whole programs in which the scale is divided out after every product.", "quantifier": "for all sessions of three or more parties, all pairs of secrets, all divisors, every coalition of all but one of the parties, any tensor shape, all programs of sharings, sums, public operands and products", "why_tests_cant": "A statement about the distribution of views; tests look at the quotient only and cannot compare distributions for all secrets.", "anchors": ["src/sympc/protocol/spdz/spdz.py: public_divide, div_wraps", "src/sympc/protocol/beaver/beaver.py: count_wraps_rand", "src/sympc/utils/mpc_utils.py: count_wraps"]}
{"id": "C80", "title": "What is put into a replicated share comes out of it", "statement": "ReplicatedSharedTensor(shares=l, config, ring_size).decode() returns the numbers of l up to the precision of the encoder; share[k] = v changes share k and nothing else, share[k] reads what was written last, negative k count from the end and other k raise IndexError; T acts on every share and keeps session, ring and configuration; a ring that is not supported raises ValueError.", "quantifier": "for all lists of shares, numbers, configurations and supported rings, all indices", "why_tests_cant": "Which numbers survive depends on the scale and the torch type of the ring together; tests use a few integers in one ring.", "anchors": ["src/sympc/tensor/replicatedshare_tensor.py: ReplicatedSharedTensor.__init__, _encode, decode, __getitem__, __setitem__, hook_property", "src/sympc/utils/mpc_utils.py: get_type_from_ring"]}
{"id": "C81", "title": "Fixed point programs with shapes compute what torch computes, up to a known error", "statement": "Take any program of +, -, *, matmul (between secrets and with public numbers and tensors) and forwarded methods (transpose, reshape, sum, narrow, ...) on MPCTensors with scaled values, in which no public operand is larger than the secret it is added to. If torch raises an error on the plain tensors, the secret program raises that error, and no other. Otherwise every result reports torch's shape, opens to a tensor of that shape, and each element decodes to torch's real number within an error computed in advance by the same program on error bounds, provided inputs and products fit 64 bits and no truncation wraps.", "quantifier": "for all programs, all shapes (with broadcasting), all secrets and public values, all random draws, all bases and precisions with a scale below 2^63 for two parties, binary encoders of at most 24 bits for three or more parties", "why_tests_cant": "Tests compare single operations on a few shapes with a tolerance; that shapes, errors and rounding agree with torch along every composition is a statement about all programs and draws.", "anchors": ["src/sympc/tensor/mpc_tensor.py: MPCTensor.__apply_op, truncate, _get_shape, hook_method", "src/sympc/protocol/spdz/spdz.py: mul_master, mul_parties, public_divide", "src/sympc/encoder/fp_encoder.py: FixedPointEncoder"]}
{"id": "C82", "title": "Replicated secrets compute with shapes like torch", "statement": "An MPCTensor of three replicated parties (Falcon, ABY3; both security types) that holds a torch tensor keeps holding torch's result: under +, -, *, matmul between secrets and with public operands, with broadcasting, and under the methods that replicated shares have (t, T, unsqueeze, view, sum, clone, repeat), along whole programs without fixed point numbers. The masks of the parties cancel for every shape, honest parties always pass the verification of malicious security, the shape reported is torch's, and where torch raises an error the secret program raises that error.", "quantifier": "for all programs, all shapes (with broadcasting), all secrets and public values, all random draws, both security types", "why_tests_cant": "Tests multiply a few small tensors of equal shape; that masks, triples and shapes fit along every composition is a statement about all programs, shapes and draws.", "anchors": ["src/sympc/protocol/falcon/falcon.py: Falcon.mul_master, mul_semi_honest, mul_malicious", "src/sympc/protocol/aby3/aby3.py: ABY3.truncate", "src/sympc/tensor/replicatedshare_tensor.py: ReplicatedSharedTensor", "src/sympc/tensor/mpc_tensor.py: MPCTensor.__apply_op, hook_method"]}
{"id": "C83", "title": "Fixed point programs on replicated shares with shapes compute what torch computes, up to a known error", "statement": "Take any program of +, -, *, matmul (between secrets and with public numbers and tensors) and methods that replicated shares have, on MPCTensors with scaled values shared with Falcon among three parties in the ring 2^64, in which no public operand is larger than the secret it is added to and, with malicious security, no product is empty. If torch raises an error on the plain tensors, the secret program raises that error, and no other. Otherwise every result reports torch's shape, opens to a tensor of that shape, and each element decodes to torch's real number within an error computed in advance by the same program on error bounds (two quanta for each truncation), provided inputs and products fit 64 bits and no truncation wraps.", "quantifier": "for all programs, all shapes (with broadcasting), all secrets and public values, all random draws, both security types, all bases and precisions with a scale below 2^63", "why_tests_cant": "Tests compare single operations on a few shapes with a tolerance; that shapes, errors and rounding agree with torch along every composition is a statement about all programs and draws.", "anchors": ["src/sympc/protocol/falcon/falcon.py: Falcon.mul_master", "src/sympc/protocol/aby3/aby3.py: ABY3.truncation_algorithm1, truncate", "src/sympc/tensor/mpc_tensor.py: MPCTensor.__apply_op, _get_shape, hook_method", "src/sympc/encoder/fp_encoder.py: FixedPointEncoder"]}
{"id": "C84", "title": "Python expressions over secrets mean what they say", "statement": "An expression built from MPCTensors, public numbers and public tensors with Python's operators evaluates to what the operators denote, whichever side of an operator the secret is on (so 2 - x is not x - 2, 2 < x is x > 2, A @ x multiplies from the left), and while gradients are recorded the result has requires_grad exactly if a tensor with requires_grad is connected to it by differentiable operators. Operators that secrets do not have raise TypeError, powers that are not non-negative integers are refused, and an assignment such as x += y changes no variable but x (torch's in-place rule aside). Attribute names resolve to gradient functions exactly while gradients are recorded.", "quantifier": "for all expressions (any nesting), all operators, all secrets and public operands on either side, recording on or off, all names", "why_tests_cant": "Tests evaluate a few operators on literals; that every composition dispatches to the right method in the right order and keeps the gradient connection is a statement about all expressions.", "anchors": ["src/sympc/tensor/mpc_tensor.py: wrapper_getattribute, MPCTensor.__getattribute__, rsub, rmatmul, rtruediv, truediv, pow, isub, le, ge, lt, gt, ne, operator table", "src/sympc/grads/grad_functions.py: forward, GradPow.forward, GRAD_FUNCS"]}
{"id": "C85", "title": "argmax and max of secret tensors have torch's shape and values", "statement": "x.argmax(dim, keepdim) and x.max(dim, keepdim, one_hot) of an MPCTensor of any shape return tensors of the shape torch returns, with the index and the value of the largest element of every slice along the dimension (also for negative dims and dimensions of size 1); without dim they return the flattened index and the largest element of the whole tensor; a dimension that does not exist raises IndexError and never gives a value.", "quantifier": "for all shapes, dims (negative ones included), keepdim, one_hot and all values with a unique maximum; for the flattened case all shapes and values", "why_tests_cant": "The tests use one vector and one 2x3x2 tensor. Which shapes, dimensions and values the pairwise comparison handles, and that every matrix without dim fails, quantify over all tensors.", "anchors": ["src/sympc/tensor/static.py: helper_argmax, argmax, max_mpc, helper_argmax_pairwise"]}
{"id": "C86", "title": "A shared network predicts what the network predicts", "statement": "Take a network of torch.nn.Linear layers (with or without bias) and ReLU in any order, of any depth and width. Share it with model.share(session), share a batch of inputs, run the layers and nn.functional.relu on the secrets, and open the outputs. No exception is raised and every opened output is within an error of the network's output that can be computed in advance from the weights, the input and the encoder's scale; if one output leads by more than the errors, it is also the largest opened one, so the predicted class is the same.", "quantifier": "for all networks, weights, batches, inputs, scales, random shares, triples and comparison keys, and all states that earlier computations leave, as long as the numbers fit and no truncation wraps", "why_tests_cant": "Tests run one small model and compare with a tolerance. That rounding errors cannot add up beyond a known bound over any number of layers, for any weights and shares, needs an induction over the layers.", "anchors": ["src/sympc/module/__init__.py: share", "src/sympc/module/nn/linear.py: Linear.forward, share_state_dict", "src/sympc/module/nn/functional.py: relu", "src/sympc/protocol/spdz/spdz.py: mul_master", "src/sympc/protocol/fss/fss.py: fss_op"]}
{"id": "C87", "title": "A training loop is gradient descent", "statement": "Make parameters with requires_grad, give them to SGD(parameters, lr), and repeat: compute a loss from the parameters and new data in the session, call loss.backward(), optimizer.step() and optimizer.zero_grad(). After any number of rounds, each with its own data and its own way to compute the loss, the parameters are where gradient descent with this learning rate leads from the initial parameters: each round subtracts lr times the derivative of this round's loss at the current parameters, whatever tensors earlier rounds left in the session. A round with a parameter that the loss does not use raises TypeError. In exact arithmetic linear regression gives the least mean squares rule.", "quantifier": "for all numbers of parameters and shapes, learning rates, initial values, numbers of rounds, computations and data of each round, where the losses have derivatives and the results used for a loss have no other use", "why_tests_cant": "Tests train one small model for a few steps. That counters, gradients and records of earlier rounds never disturb a later one, for every computation, needs an induction over rounds with an invariant on the session's graph.", "anchors": ["src/sympc/optim/sgd.py: step, zero_grad", "src/sympc/tensor/mpc_tensor.py: backward, isub, __getattribute__", "src/sympc/grads/grad_functions.py: forward"]}
{"id": "C88", "title": "A comparison shows nothing about the secrets", "statement": "When two secrets are compared (==, <= and everything built on them) in a two-party session with function secret sharing, neither the parties nor the caller learn anything about them besides what the caller opens afterwards: the number that a party is given to evaluate its keys on is equally likely to be every 32 bit number, whatever the secrets and the party's own masks; and the number opened in between does not depend on the secrets either.", "quantifier": "for all shapes, secrets, shares, masks, and earlier comparisons in the session", "why_tests_cant": "A test sees one masked number per run and cannot tell whether it depends on the secret; independence is a statement about all masks together.", "anchors": ["src/sympc/protocol/fss/fss.py: fss_op, mask_builder, evaluate"]}
{"id": "C89", "title": "Sessions used side by side do not interfere", "statement": "A program may keep several sessions open at once, also with the same clients, and make calls in them in any order. The comparisons of a session give the same outcomes, and leave the same keys in the stores of its parties, as if its calls were made alone. Every product is the product of its operands, its shares belong to the parties of its own session, and no Beaver triple is used twice, in whatever sessions the products are. Sessions set up one after the other with `setup_mpc` meet what this needs.", "quantifier": "for all numbers of sessions, numbers of parties, interleavings of calls (including calls that fail), operations, shapes, secrets, randomness and, for comparisons, all stores at the start", "why_tests_cant": "Tests use one session at a time; the interleavings are unbounded and the stores are shared state", "anchors": ["src/sympc/session/session_manager.py", "src/sympc/store/crypto_store.py", "src/sympc/store/crypto_primitive_provider.py", "src/sympc/protocol/spdz/spdz.py", "src/sympc/protocol/fss/fss.py"]}
{"id": "C90", "title": "A product that is refused does no harm", "statement": "If `x * y`, `x @ y` or a convolution of two secrets has shapes or arguments that torch refuses, the call raises torch's exception. A program that catches it can go on with the session: the stores of the parties stay in step (a refused product takes at most one Beaver triple, at every party the same one), every later product that torch accepts is right, no triple is used twice, and later refused calls raise again.", "quantifier": "for all histories of provisioning and products, accepted or refused in any order, all numbers of parties, operations, shapes, keyword arguments, secrets, sharings and randomness", "why_tests_cant": "Tests stop at the exception; whether the stores still agree afterwards shows only in later products, for histories without bound", "anchors": ["src/sympc/protocol/spdz/spdz.py", "src/sympc/protocol/beaver/beaver.py", "src/sympc/store/crypto_store.py", "src/sympc/utils/utils.py"]}
{"id": "C91", "title": "Exceptions, shapes and printed forms do not depend on the secrets", "statement": "In a session with additive shares, or with replicated shares and semi-honest security, the caller can look at secrets without opening them: which calls raise and which exception, the shape and len() of every result, and what str() and repr() print. All of this is the same for any two lists of secrets of the same shapes, whatever is drawn at random and whatever the elements of public operands are, over any history of calls of operators and hooked methods in which the caller catches the exceptions and goes on. So a log or a notebook that never calls reconstruct() reveals nothing about the secrets but their shapes.", "quantifier": "for all shapes, secrets, public operands, random numbers, histories of calls (including refused ones), numbers of clients (additive shares: two; three or more with a binary encoder of at most 24 bits; replicated shares: three) and all ways to print a shape", "why_tests_cant": "Tests print one secret and catch one exception. That no exception or shape ever depends on an element is a statement about all pairs of secrets and all histories.", "anchors": ["src/sympc/tensor/mpc_tensor.py: __str__, __repr__, __len__, shape, __apply_op, __apply_private_op, __apply_public_op, hook_method", "src/sympc/protocol/spdz/spdz.py: mul_master", "src/sympc/tensor/share_tensor.py: apply_function"]}
{"id": "C92", "title": "Training a linear model on secrets follows gradient descent", "statement": "A training loop on secret weights, secret rows and secret targets calls x @ w (or a shared Linear layer with a bias), mse_loss(pred, y, \"sum\"), loss.backward(), optimizer.step() and optimizer.zero_grad() for one batch after another. Whatever the batches, the learning rate and the random numbers, the loop raises nothing and ends with weights (and a bias) of the shape they had. Every opened weight differs from that of gradient descent on the sum of squared errors (computed with exact numbers on the same batches) by no more than an estimate that follows from the inputs alone, provided that numbers fit into the fixed point range and no share of a product wraps.", "quantifier": "for all numbers of batches, rows, features and outputs, all numbers in them, all learning rates, all random numbers of sharing and products; two parties, three or more parties with a binary encoder of at most 24 bits, and replicated shares with either security", "why_tests_cant": "A test trains a few rounds on one data set and compares with torch up to a tolerance found by trial. That the calls of forward, backward and step together make gradient descent for all data, and how far rounding can carry the weights, are statements about all programs of this form.", "anchors": ["src/sympc/tensor/mpc_tensor.py: backward, matmul, pow, isub", "src/sympc/grads/grad_functions.py: GradMatMul, GradSub, GradPow, GradSum, forward", "src/sympc/module/nn/functional.py: mse_loss", "src/sympc/module/nn/linear.py: forward, parameters", "src/sympc/optim/sgd.py: SGD.step, SGD.zero_grad"]}
{"id": "C93", "title": "Programs with shapes show a party nothing but shapes", "statement": "In a session of two parties, a program shares tensors and makes any sequence of calls on them: sums, products and matrix products of secrets and with public operands (encoded, and divided by the scale), and the forwarded methods such as sum, transpose and reshape. All that a party gets to see on the way is its share of every input and result, the opened masked operands and its parts of the Beaver triple of each product, the reported shapes, and an exception if one is raised. If the secrets are replaced by others of the same shapes, the same view arises from random numbers each of which is moved by an amount settled before it is drawn; so, if the numbers were drawn from the whole ring, the view would be distributed in the same way whatever the secrets. The same holds for all parties but one of any number, as long as each divides its own shares.", "quantifier": "for all configurations, shapes, secrets, public operands, programs (including those that end with an exception), random numbers and either party", "why_tests_cant": "Tests see values of single runs. That what is seen has the same distribution for any two lists of secrets is a statement about all random numbers, all secrets and all programs.", "anchors": ["src/sympc/tensor/mpc_tensor.py: generate_shares, __apply_op, __apply_private_op, __apply_public_op, hook_method", "src/sympc/protocol/spdz/spdz.py: mul_master, mul_parties, public_divide", "src/sympc/protocol/beaver/beaver.py: _get_triples"]}
{"id": "C94", "title": "Shares of near secrets are nearly indistinguishable", "statement": "The numbers that hide a secret are drawn from half of the ring (torch's random_()), so that shares and opened values do depend on the secret. How much they tell is bounded: whatever all parties but one look for in their shares of a tensor, the chances to find it for two secrets differ by at most the distance of the secrets, summed over the elements and counted in quanta, times the number of parties from the missing one on but the last, divided by 2^63. Without the last party the others learn nothing. For two parties the bound is reached. In the same way, whatever one looks for in the two values opened for a product, the chances for two pairs of secrets differ by at most the distances of the secrets divided by 2^63.", "quantifier": "for all numbers of parties, missing parties, shapes, pairs of secrets, all questions asked about the shares or opened values, and all products (mul, matmul, convolutions); chances counted over all numbers the code can draw", "why_tests_cant": "A probability of 2^-47 to tell 1 from 2 can be neither seen nor excluded by running the code", "anchors": ["src/sympc/tensor/mpc_tensor.py: generate_shares", "src/sympc/protocol/spdz/spdz.py: mul_master", "src/sympc/protocol/beaver/beaver.py: _get_triples"]}
{"id": "C95", "title": "Programs on replicated shares show one party nothing but shapes", "statement": "Three parties hold replicated shares, with semi-honest or malicious security. A program shares tensors and makes any sequence of calls on them: sums, products and matrix products of secrets and with public operands (encoded, and truncated after products), and the forwarded methods. All that one party gets to see on the way is the two shares it holds of every input and result, the numbers of its two generators, its masked share of every product, with malicious security also its shares of the triple and the values opened for the verification, the reported shapes, and an exception if one is raised. If the secrets are replaced by others of the same shapes, the same view arises from random numbers each of which is moved by an amount settled before it is drawn; so, if the numbers were drawn from the whole ring, the view would be distributed in the same way whatever the secrets.", "quantifier": "for all configurations, both security types, shapes, secrets, public operands that do not enlarge a secret, programs (including those that end with an exception), random numbers and each of the three parties", "why_tests_cant": "Tests see values of single runs. That what is seen has the same distribution for any two lists of secrets is a statement about all random numbers, all secrets and all programs.", "anchors": ["src/sympc/protocol/falcon/falcon.py: mul_master, mul_semi_honest, mul_malicious, compute_zvalue_and_add_mask", "src/sympc/protocol/aby3/aby3.py: truncate, truncation_algorithm1", "src/sympc/tensor/mpc_tensor.py: generate_shares, __apply_op, hook_method", "src/sympc/tensor/replicatedshare_tensor.py: distribute_shares"]}
{"id": "C96", "title": "With malicious security one liar cannot change a result", "statement": "Three parties hold replicated shares with malicious security. One of them sends other elements than it should, in as many messages as it likes, while a program of sums, products, matrix products and forwarded methods runs and a result is opened: masked shares of products, masked operands, parts of verifications, shares that are truncated, shares that are opened, and its part of the Beaver triples. The caller gets the value (or the exception) that it would get if all were honest, or a ValueError.", "quantifier": "for all configurations, shapes, secrets, programs, random numbers, each of the three parties and all lies (tensors of the expected shape with any elements, which may depend on everything)", "why_tests_cant": "Tests let a party change one share by one number. Programs, positions and combinations of lies are unbounded, and lies in two messages can cancel", "anchors": ["src/sympc/protocol/falcon/falcon.py: mul_malicious, triple_verification, falcon_mask", "src/sympc/protocol/beaver/beaver.py: _get_triples", "src/sympc/protocol/aby3/aby3.py: truncate, truncation_algorithm1", "src/sympc/tensor/replicatedshare_tensor.py: __reconstruct_malicious"]}
{"id": "C97", "title": "get_shares returns the shares of the secret", "statement": "x.get_shares() returns one tensor for every party, the shares that the secret was split into, which add up in the ring to the secret (what reconstruct returns before decoding). It fails exactly if reconstruct fails, and with the same exception. With malicious security and three parties it returns no share that a party has made up.", "quantifier": "for all numbers of parties, rings, secrets, shares, both security types, and all shares that one party hands in", "why_tests_cant": "Tests look at the number of shares of one tensor. That they are the shares, and what happens with made-up ones, is about all shares and all parties.", "anchors": ["src/sympc/tensor/mpc_tensor.py: get_shares, reconstruct", "src/sympc/tensor/share_tensor.py: reconstruct", "src/sympc/tensor/replicatedshare_tensor.py: reconstruct, __reconstruct_semi_honest, __reconstruct_malicious"]}
{"id": "C98", "title": "What is put into an additive share comes out of it", "statement": "ShareTensor(data, config, session_uuid, ring_size).decode() returns the numbers in data up to the precision of the encoder, multiples of the precision unchanged, in every ring that is supported. A ring that is not supported is refused by a ValueError. The share keeps its ring, session and configuration.", "quantifier": "for all data, encoder configurations, sessions and rings", "why_tests_cant": "Tests decode a few numbers in the ring 2^64. Whether encodings survive the type of each ring is about all numbers, scales and rings.", "anchors": ["src/sympc/tensor/share_tensor.py: __init__, _encode, decode, _decode", "src/sympc/encoder/fp_encoder.py: encode, decode", "src/sympc/utils/mpc_utils.py: get_type_from_ring"]}
{"id": "C99", "title": "What a party computes from its shares belongs to their session and ring", "statement": "The result of adding, subtracting, multiplying, dividing, transposing, ... additive or replicated shares, in any nesting and with public numbers in between, belongs to the session of the shares and has the configuration and the ring size of that session; without a session it has those of the shares. A share without a session that is combined with one of a session joins the session.", "quantifier": "for all nested expressions, shares, public operands, sessions, configurations and rings", "why_tests_cant": "Tests check the result of one operation in the default ring. That nothing gets lost on the way is about all nestings and all rings.", "anchors": ["src/sympc/tensor/share_tensor.py: sanity_checks, apply_function, add, sub, rsub, mul, matmul, div, hook_method, hook_property", "src/sympc/tensor/replicatedshare_tensor.py: sanity_checks, __apply_public_op, __apply_private_op, mul, xor, hook_method"]}
