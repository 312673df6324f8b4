# SyMPC in Lean 4: design of the model and of the proofs

## What is here

* `properties.jsonl`: the properties, stated on the API.
* `lean/Verif/Model/*.lean`: the model. Every definition cites the file and lines of `/repo` it mirrors and
  says where it is simpler than the code.
* `lean/Verif/Spec/*.lean`: small specifications that do not use the model.
* `lean/Verif/Lemmas/*.lean`: helper lemmas.
* `lean/Verif/Props/*.lean`: one theorem (or a few) per property, named `Cnn_...`, each with an `example` on a
  concrete non trivial case meeting its hypotheses.
* `MANIFEST.json`: the status of each property and its theorems.
* `seeded/LOG.jsonl`: wrong programs tried against the theorems.

## Modelling decisions

1. **Integers.** A torch `int64` element is `BitVec 64`; `+ - *` are the wrapping operations, `toInt` is the signed
   value. Tensor `//` in the torch versions allowed by `requirements.txt` (`torch>=1.6,<=1.8.1`) rounds toward zero
   (`BitVec.sdiv`, `Int.tdiv`), `%` is Python's remainder (`Int.fmod`/`Int.emod` for a positive modulus), `>>` is the arithmetic shift.
   `torch.bool` with xor/and is `BitVec 1` or `Bool`; `uint8` is `BitVec 8` read unsigned.
2. **Tensors.** An operation that acts element by element is modelled on one element; a statement for an arbitrary
   commutative ring (or abelian group) `R` covers tensors by taking `R := index → BitVec 64`. Products that are not
   element-wise (matmul, conv2d, broadcasting mul) are modelled as bi-additive maps `A →+ B →+ C`, which is what
   they are. Code whose content is shape arithmetic (stack, cat, broadcasting, max-pooling) is modelled on shapes.
3. **Errors.** A Python exception is a value of `Except PyErr`; functions are mirrored branch by branch.
4. **Randomness** is an explicit argument (a list of drawn values, or a generator with a state); theorems quantify
   over all of it. `Tensor.random_()` on `int64` draws from `[0, 2^63)`; this is visible in the secrecy property.
5. **Parties** are the entries of a list; a collective call applies a function to every entry. Transport, pointers,
   serialisation (PySyft) are not modelled: `.get_copy()`, `.send()` are the identity.
6. **Mutable state** (generators, crypto stores, tensors that are updated in place) is a state that is threaded.
7. **Floats** that only carry public, decoded values are rationals. Where rounding matters (decoding, the wrap-around
   correction of `public_divide`) every float operation is followed by a rounding `fl`, which is a parameter; `f32` is
   round-half-even to 24 bits with an unbounded exponent (no overflow, no subnormals).
8. **External cryptography**: `sycret` key generation/evaluation is a parameter with its defining equation as an
   assumption; the mt19937 generator is an arbitrary deterministic stream.

## Trusted base

* The Lean 4.33.0 kernel, and the axioms `propext`, `Classical.choice`, `Quot.sound` and no other. The last section lists, for every
  theorem of `MANIFEST.json`, which of them it uses (made by `tools/axioms.py`).
* Mathlib's definitions used in statements (rings, lists, permutations, finite sums, rationals, reals and `Real.exp`; `BitVec` is from core).
* That the definitions in `Verif/Model` say what the cited Python lines do, in particular the torch semantics above.

What each model file covers and what it assumes about things outside the code:

| model file | code | assumed or left out |
|---|---|---|
| `Py` | exceptions, list access | exceptions are values; messages are left out |
| `Encoder`, `Float32` | `encoder/fp_encoder.py`, `config/config.py` | base and precision are natural numbers; a float too large for int64 wraps in the model |
| `Ring` | `utils/utils.py` (rings, operations by ring) | |
| `Session`, `Registry` | `session/session.py`, `session_manager.py`, `protocol/protocol.py`, `share()` of `mpc_tensor.py` | PySyft clients are numbers; sending a session is copying it |
| `Przs` | PRZS/PRRS parts of `session.py` and of the share tensors | the mt19937 generator is any deterministic stream |
| `Share` | `tensor/share_tensor.py`, `tensor/mpc_tensor.py` for additive shares | `.send()`, `.get()` are the identity |
| `Tensor` | shapes, `stack`, `cat` | a tensor is a shape and a function on positions |
| `Rst` | `tensor/replicatedshare_tensor.py` | |
| `Dispatch` | `__apply_private_op`, `__apply_public_op`: which protocol an operator runs | |
| `Store`, `Spdz` | `store/*`, `protocol/spdz/spdz.py`, `protocol/beaver/beaver.py` | the triples' randomness is an argument |
| `Wraps`, `Heap`, `Derived` | wrap counting, `public_divide`, derived comparisons | `Heap`: a pointer's object is changed when the code changes its tensor in place |
| `Falcon`, `Aby3` | `protocol/falcon/falcon.py`, `protocol/aby3/aby3.py` | three parties, as the code demands |
| `Fss` | `protocol/fss/fss.py` | `sycret`: keys that satisfy `KeysCorrect` (the outputs of the two parties add up to the bit); signed and unsigned readings of the 32 bit numbers are both treated |
| `Algo`, `Approx`, `Nn` | `algorithms`, `approximations`, `module/nn/functional.py`, `static.py` argmax/max | written over a record of operators; decimal constants are exact |
| `Machine` | the operators of a two-party session with SPDZ products and FSS comparisons | two events end a run with a mark: a share addition leaving the ring before a division, and an FSS output `-2^31` |
| `Log` | logging and replay in `crypto_primitive_provider.py` | a predicate tells what JSON can write |
| `Parallel` | `parallel_execution` | a worker only touches the state of its own party |
| `Broadcast`, `Autograd`, `Grad` | `grads/grad_functions.py`, autograd of `mpc_tensor.py` | exact field elements (no rounding); depth of recursion is a parameter |
| `Layer` | `module/nn/linear.py`, `optim/sgd.py` | bias broadcast before it is added |
| `Conv` | `conv2d`, `conv_transpose2d` of `mpc_tensor.py` | torch's convolutions as sums over all positions |
| `Module` | `module/__init__.py`, `module/nn/conv.py`, `module/nn/smpc_module.py`, sharing in `module/nn/linear.py` | PySyft's `Module` is a list of named layers; class names of remote layers end in `Pointer` |
| `Shape` | shapes, broadcasting and forwarded methods of `mpc_tensor.py`, products in `spdz.py` | precision 0 (no truncation, see `ShapeFixed`); every product makes its own triple; torch's methods as gathers of positions |
| `Equality` | `Session.__eq__`, `__eq__` of the protocols, comparisons of `share_tensor.py` and `replicatedshare_tensor.py` | clients, stores, generators and pointers given by an identity; the other operand is an object of the class (or, for sessions, of another class) |
| `Provider` | `store/__init__.py`, `crypto_store.py`, `crypto_primitive_provider.py:26-95`, `tensor/tensor.py` | generators, adders and getters are parameters; the log is one list; a party's primitives are a list of tuples |
| `Primitives` | the functions registered in `beaver.py:171-548` | generators are parameters; the stores of fss keys are in `Fss` |
| `RstAccess` | the constructor of `ReplicatedSharedTensor` with shares, `decode`, `[k]`, `[k] = v`, `T`, `shape` (`tensor/replicatedshare_tensor.py`) | a share is the list of its elements |
| `GradRounded` | the programs of `Grad` with errors (`grads/grad_functions.py`, `encoder/fp_encoder.py`) | the errors are given, one per element of each new tensor and of each gradient sent to an operand; errors inside one operation count at its result; adding gradients is exact |
| `ShapeFixed` | the programs of `Shape` with encoded operands and the division by the scale (`mpc_tensor.py`, `spdz.py`, `share_tensor.py`) | sessions and tags only in the division of three or more parties; the secrets before the divisions are recorded in a ghost log |
| `RstShape` | replicated secrets with shapes: sharing, reconstruction, operations and forwarded methods (`replicatedshare_tensor.py`, `mpc_tensor.py`), products of `falcon.py` with their triples (`utils.py`, `mpc_utils.py`), truncation of `aby3.py` | the quotient of the truncation is a parameter; ring `2^64` or any other as a commutative ring; sessions and tags left out; memory layout of torch tensors (`view` of a transposed tensor) left out; the shares before the truncation are recorded in a ghost log |
| `Operators` | names and Python operators of `MPCTensor`: `__getattribute__`, `wrapper_getattribute`, the table of operators and the methods behind it (`mpc_tensor.py`), `forward` of `grad_functions.py` | square matrices of one size; no rounding and no overflow (see the other models); the rules of Python for binary operators; numbers and torch tensors answer `NotImplemented` for an `MPCTensor`; public operators, `xor` and the reciprocal are parameters |
| `ArgmaxShape` | `helper_argmax_pairwise`, `helper_argmax`, `argmax`, `max_mpc` (`static.py:155-319`) on tensors of any shape | exact arithmetic on the values (C41 has the rounding, C66 that methods and products on shares are those on values); `dim` is a number or `None`, tuples are not modelled; torch's `expand`, `roll`, `stack`, `view`, `sum` as defined in the model |
| `Network` | `share` of a module with linear layers, the calls of `Linear.forward` and `relu` in a user's `forward` (`module/__init__.py:57-84`, `linear.py:47-61`, `functional.py:38-51`) | two parties with function secret sharing, autograd off; the layers are a list, values between layers are used once; decoded as exact numbers |
| `Training` | training loops: `SGD.step`, `SGD.zero_grad` (`optim/sgd.py:24-40`), `isub` (`mpc_tensor.py:417-428`) and `backward` round after round in one session | exact arithmetic; the record of `grad * lr` (whose operand is a gradient nobody uses) is left out; a gradient of another shape than its parameter ends the model |
| `FssView` | what `fss_op` shows to the caller and to the parties (`fss.py:118-180`) | of a key only its first four bytes (the share of the mask) are part of the view; that the rest of a key hides the mask is the assumption on `sycret` (computational) |
| `SpdzRaise` | `mul_master`, `mul_parties` and the generation of triples when torch refuses the product (`spdz.py:36-178`, `beaver.py:38-169`): the outcome together with the stores afterwards | whether torch refuses depends on operation, shapes and keyword arguments, not on the values; `parallel_execution` lets every party finish and then raises the first exception |
| `Printing` | `MPCTensor.__str__` and `__repr__` (`mpc_tensor.py:872-895`) | how Python prints a shape and a `GradFunc`; the printed form of a client is a string |
| `Regression` | the calls of a training loop for a linear model: `x @ w`, `mse_loss(…, "sum")` (`functional.py:54-74`), `MPCTensor.backward` (`mpc_tensor.py:928-973`), the gradient functions that it reaches, `SGD.step` (`sgd.py:24-35`), as a program over `ShapeFixed` | the loop is unrolled by hand into the operators and methods that it calls, in order; the secret one that `backward` shares is shared at the beginning; the assignments of `grad` and of the shares in place are positions |
| `LinearTraining` | the same loop for the module `Linear` with a bias (`linear.py:44-59`), gradients of the transposed weight (`GradT`) and of the broadcast bias (`GradAdd`, `_reverse_broadcast`), `SGD.step` over both parameters | as for `Regression`; `res.sum([0])` is written as `res.sum(0)` |
| `ShapeView` | what all parties but one see of a program of `ShapeFixed`: shares of inputs and results, opened masked operands, parts of triples, shapes, exceptions (`spdz.py:36-92`) | as for `ShapeFixed`; what the division of three or more parties opens is left out (C79) |
| `RShapeView` | what one of three parties sees of a program of `RstShape`: its two shares of every value, the numbers of its generators, its masked shares of products; with malicious security its shares of triples and the opened values (`falcon.py:255-377`) | as for `RstShape`; what the caller opens to verify a triple and a product is not shown to the parties |
| `RLying` | the programs of `RstShape` with malicious security when one party lies in its messages (`falcon.py:163-341`, `beaver.py:123-125`, `aby3.py:140-141`) | as for `RstShape`; lies keep the shape of the tensor; no silence |
| `GetShares` | `MPCTensor.get_shares` and `reconstruct(get_shares=True)` of both classes of shares | a tensor is one element of a ring |
| `ShareAccess` | constructor and `decode` of `ShareTensor`, with the type of the ring | a tensor is the list of its elements |
| `ShareExpr` | nested calls of the operations in `Share` on the shares of one party | all tensors have one type |
| `RstExpr` | nested calls of the operations in `Rst` on the replicated shares of one party | public operands are encoded already; all tensors have one type |
| `Loss` | `module/nn/functional.py:54-74`, `tensor/mpc_tensor.py:579-589` | over `SecretOps`; `pred` and `target` have the same shape |
| `Rmatmul` | `tensor/mpc_tensor.py:552-577`, `tensor/share_tensor.py:307-317` | the operands are matrices or vectors of fixed sizes; the division of more than two parties is a parameter; `y @ pointer` is taken to reach `rmatmul` of the share |
| `RstLocal` | `tensor/replicatedshare_tensor.py:494-584`, `tensor/static.py:76-152` | ring `2**64`; tensors that are concatenated are lists of their elements, along dimension 0 |
| `Decompose` | `utils/mpc_utils.py:126-153` | one element; float32 division as in `Float32` |
| `Program` | `tensor/mpc_tensor.py:161-199, 672-757, 1017-1066`, `protocol/spdz/spdz.py:36-96` in sequence | straight-line programs on tensors of one shape with additive shares; random numbers from a tape; the log of what is seen is not in the code |
| `RProgram` | `tensor/mpc_tensor.py:161-199, 672-757, 1017-1066`, `protocol/falcon/falcon.py:85-340`, `protocol/aby3/aby3.py:60-150` in sequence | straight-line programs on tensors of one shape with replicated shares of three parties; random numbers from a tape; a triple is made for each malicious product (stores empty before); the log of what is seen is not in the code |
| `Chebyshev` | `approximations/tanh.py:50-141` | the coefficients as real numbers (torch: float32); the polynomials, the stack, `unsqueeze`, `T`, `squeeze` and `matmul` on tensors of real numbers with their shapes (no sharing, no rounding) |
| `MProgram` | `tensor/mpc_tensor.py:161-199, 672-757, 736-740, 799-813, 1017-1066`, `protocol/spdz/spdz.py:36-96` in sequence | straight-line programs with scaled values on tensors with `n` elements in a two-party session, with the stores and the recorded events of `Machine` |
| `WrapsT` | `protocol/spdz/spdz.py:181-276`, `utils/mpc_utils.py:23-49`, `protocol/beaver/beaver.py:504-548` | division of whole tensors by a public integer with any number of parties |
| `DivideView` | `protocol/spdz/spdz.py:181-228` | the same division with what the provider and the orchestrator send to the parties |
| `NProgram` | mpc_tensor.py:783-867 with the statements of `Program`: scaled programs on additive shares of three or more parties |

Not modelled: PySyft transport and remote execution, Python attribute forwarding, garbage collection, float32 overflow and
subnormals, devices, timing and other side channels.  Also not modelled: `__str__` and `__repr__`; getters that return a field
(`Session.get_protocol`, the getters of the encoder); `ABY3.truncation_algorithm2` and `_get_truncation_pair`, which no code calls and which
cannot work (the first calls `ABY3.get_truncation_pair`, which does not exist; the second passes three of five arguments).

## Plan per property

| id | model | proof |
|----|-------|-------|
| C01, C02 | encoder on rationals and integers, floor/trunc corrections of `decode` spelled out | integer division lemmas, `Rat` |
| C03 | `generate_shares` as the loop over indices with an explicit list of draws, exceptions for out of range | induction on the number of parties (telescoping sum) |
| C04 | same model, draws restricted to what `random_()` can return | bijection for full-range draws (`_partial`), a witness that the half-range draws of the code break it |
| C05, C06 | generators with states, the ring of seeds of `_setup_przs`, a history of collective calls | invariant on generator states by induction over the history; cyclic sum |
| C07 | `MPCTensor.__init__` for a remote secret | on top of C05; witness for a holder outside the session |
| C08 | `distribute_shares*`, both reconstructions, for any n, over any ring | index arithmetic mod n |
| C09, C10 | malicious reconstruction with one party's shares replaced | case analysis on the position of the corrupted party |
| C11-C15 | share level and tensor level operations incl. checks | list induction, distributivity; `rsub` of replicated shares is wrong: witness + partial |
| C16, C17 | additive maps on shares; stack/cat on shapes | map/sum exchange; witness for dim 1 + partial for dim 0 |
| C18, C19 | `spdz_mask`, `mul_parties`, `mul_master` for a bi-additive op | algebra; bijection |
| C20, C21, C23, C50, C59 | crypto store as state, provider, histories | refinement to per-key queues, invariants over histories; witnesses where keys omit arguments |
| C22 | the `.all()` check | witness + partial (one-element tensors) |
| C24, C25 | truncating division of two shares in `BitVec 64` | integer arithmetic (`omega`-style bounds) |
| C26-C28 | `count_wraps`, `div_wraps`, `public_divide` with state for the mutation | induction over shares; witness for `-2^63`; witness for the mutation |
| C29-C31 | Falcon multiplication, masks, triple verification | algebra over commutative rings and bi-additive maps |
| C32-C36 | ABY3/Falcon building blocks | integer bounds; case analysis on bits; carry chain induction; witness for `x = r` |
| C37 | 8/16-bit arithmetic of the prime ring | exhaustive over all pairs of residues (a finite, complete quantifier) |
| C38, C39 | FSS masks mod 2^32, derived comparisons | modular arithmetic; witness beyond 2^31 |
| C40 | bubble sort with arithmetic swap | loop invariants |
| C41 | argmax by pairwise comparisons | counting; witnesses for ties |
| C42 | square and multiply loop; the same over operators with rounding errors | induction on the exponent; error of a product of approximations; replicated shares: invariant of the loop with a record of the products (`ScaledReplicated`) |
| C43 | workers as sequences of atomic steps, any schedule | induction over the schedule |
| C44-C47, C57, C58 | decision logic, registry and cache as state | case analysis, invariants over histories; witnesses where violated |
| C48, C49 | computation graph and the `nr_out_edges` algorithm; shapes; errors of all results | invariants over the traversal; adjointness; all operations and their derivatives are continuous at the values where they are differentiable (`O(δ)` as `δ → 0`) |
| C51-C53 | the iterations over a field / commutative ring; then over operators with rounding errors (`Robust*.lean`) and in the two-party session | induction; error recurrences of squaring and Newton steps, with tables of bounds; bounds against the real functions; for log, interval arithmetic run by the kernel (`Lemmas/LogRange.lean`, proved to bound the real values) for the first step and a bound on the second |
| C54 | xor in three rings | case analysis; scaled bits: error of two truncations (`ScaledReplicated`) |
| C55, C56 | relu, pooling windows, linear layer, SGD | on top of the comparison and product theorems |
| C60 | opening of replicated shares with the ring taken from the first tensor | case analysis; witness |
| C61 | public xor on shares | witness; partial |
| C62 | softmax and log_softmax over exact operators, and in the two-party session with rounding errors | bounds on exp, reciprocal and log; witness for ties |
| C63 | torch's convolutions at all positions, shapes apart; `conv2d`, `conv_transpose2d` on shares | bi-additivity and the SPDZ theorem; equality with the textbook's sums; witnesses where arguments are refused |
| C64 | layers of torch with parameters, the tables of `module/__init__.py`, `share`, `reconstruct`, `eq_close` | induction over the layers; encoding error (C01) and sharing (C06, C07); witnesses for layers that do not come back |
| C65 | `Conv2d.share_state_dict`, `forward` | C63 with the attributes copied by `share`; witnesses for remote layers and training |
| C66 | tensors with shapes, shares with their own shapes, programs of operations | simulation of the clear program by the secret one, induction over the program; witnesses for sums that enlarge the secret |
| C67 | sessions with all slots, shares with shapes | decision logic: equality iff agreement; equivalence laws; witnesses where the equality of shares is too coarse |
| C68 | dictionaries of functions, stores and log of the provider, class dictionaries | induction over registrations, parties and forwarded names |
| C69 | algorithms over `SecretOps` | exact values, error bounds over `Sound`, two-party sessions |
| C70 | product of public and secret shares, then the division by the scale | additivity for any number of parties; two quanta for two parties (C24); `n` quanta for vectors and three or more parties (C27) |
| C71 | shares mapped party by party, loop of the concatenation | consistency of the sharing, sums of quotients, induction over the tensors |
| C72 | one element, float32 division | exactness of float32 up to `2^24`, remainders |
| C73 | programs of the operations of `Share`, `ShareOps`, `Spdz` in one session | induction over the program with the invariant that all tensors are sharings and no triple is left over; division by 1 |
| C74 | the same with the log of shares, triples and opened values | exactly one tape for every view (bijection), induction over the program; the shares of the others are a function of the view |
| C75 | programs of the operations of `Rst`, `Falcon` in one session | closed form of each operation on three shares, induction over the program; the shares of every tensor sum to its value |
| C76 | the same with the log of draws, shares, triples and opened differences of one party | a bijection of tapes built along the program by changing the share the party does not hold, with the invariant that it holds the same in both runs; negation for the coordinator, who collects every product for the truncation |
| C77 | `chebyshev_series` over the reals, `tanh` on tensors with shapes | orthogonality of the cosines at the nodes (Mathlib's Gauss sums); a polynomial of degree 9 with a small defect in `y' = 1 - y^2` is compared with `tanh` by a differential inequality, its coefficients are found exactly, so those of `tanh` are close; shapes by induction over the polynomials; for two-party sessions with rounding errors the errors of each polynomial and of the sum are added up (`RobustChebyshev`), given coefficients within 10^-5 of the real ones |
| C78 | programs of `MProgram` (two parties), `RProgram` (three parties, replicated) and `NProgram` (three or more parties, additive) with scaled values | an estimate (true value and error bound for each element) is computed beside the program (`Spec/Accuracy.lean`); induction on the program shows that each tensor is near its estimate, unless shares of a product wrap or a rare number is drawn for a division |
| C79 | `DivideView`: sharing a secret and dividing it | for every view without the correction there is exactly one choice of the random tensors (C04 for the shares of the secret, of `r` and of its wraps, in this order); the correction is computed from the opened wraps and refutes the full claim; whole programs (`NProgram`): by induction over the program, all parties but the first see the same in two programs with other secrets, for exactly one choice of the random tensors |
| C80 | constructor, `decode` and item access of replicated shares, all rings | storing an encoding in the type of the ring is exact when it is in the range of the type; decoding is C02; the rest by cases on the index |
| C81 | programs with shapes, encoding and truncation, any number of parties | three simulations of one program (64 bit integers, rational numbers, error bounds) by a relation between the elements that all operations keep; truncation by the bounds of C24 and C27 |
| C82 | replicated secrets with shapes, both security types, programs without fixed point numbers (partial: no public operand larger than the secret in a sum, methods that replicated shares have, no empty product with malicious security) | invariant: three shares of the tensor's shape that add up to it; induction over the program |
| C83 | the programs of C82 with encoded operands and the truncation of `aby3.py`, ring `2^64` | the simulations of C81 on replicated shares; truncation by the bound of C32 |
| C84 | names, operator table, expressions, assignments (partial: operators that secrets have, integer powers) | induction over expressions; the loop of `pow` by strong induction on the power |
| C85 | shapes, dimensions and values of `argmax` and `max`; all shapes without `dim` (partial: unique largest elements, and without `dim` only rows) | the cyclic shifts meet every other entry once; the number of comparisons won decides; counting for the failures |
| C86 | private inference: networks of linear layers and `relu` on shares, with errors estimated layer by layer | induction over the layers; one layer by the Beaver product before and after truncation (as C56, with the wrap recorded), `relu` by C55; sharing by C56/C01 |
| C87 | training loops over the graph of C46/C48 | a round in the session of the loop is simulated by the round in a session of its own (same tensors under a renumbering, induction over steps and over the depth of `backward`), C48 there; induction over rounds; linear regression as a closed formula |
| C88 | views of a comparison by function secret sharing after any comparisons | bijection between the masks of the other party and the numbers shown; arithmetic modulo 2^64 for the number opened by the caller |
| C89 | the stores of all parties in one world (as C18, C38), calls of several sessions in any order (`runFssShared`, `runMulShared`), `setup_mpc` for several sessions | frame lemmas (a call reads and writes only the stores of the parties of its session), then induction over the interleaving: for comparisons equality with the run alone, for products the invariant of C18 and C20 for all sessions at once |
| C90 | products whose operation may raise (`mulMasterR`), histories in which the caller catches the exceptions (`runMulR`) | invariant of C18 and C20 over the history; a refused product either finds no triple and changes nothing or removes the first triple at every party |
| C91 | histories of calls on tensors with shapes (`Shape.Step`), the caller catches exceptions (`runAll`); what is seen without opening (`seen`) | naturality: every operation commutes with replacing all elements by the element of a one-element type, so outcome, shapes and printed forms are those of the program without elements |
| C92 | the training loop as a program (`Regression.training`); specification: predictions, loss, gradient and descent over ℚ, `gradient_spec` shows that the gradient is the linear part of the loss | symbolic execution of the 20 calls of a round in the clear (`does_round`), induction over the batches (`does_rounds`), likewise for the 26 calls of a round with a layer (`LinearTraining`), then the error bounds of C81 and C83 |
| C93 | the view of `ShapeView`; specification: a bijection of all that is drawn which moves every number by an amount settled before it is drawn (`OneTimePad`) | secrets that differ in the share of one party (`Alike`) stay so, shapes and exceptions by C91's maps to `Unit`; the masks of a product move by the difference of the hidden shares, the sharing of their product by the difference of the products; induction over the program |
| C94 | `generateShares` and `mulMaster` with every number in `[0, 2^63)`; specification: `chance`, the part of all such draws for which something is found | the shift of C93 maps all draws but those that leave the range; these are counted (`card_bad`, `card_bads`); `C94_exact` counts exactly |
| C95 | the view of `RShapeView`; specification: as for C93 | secrets that differ in the one share that the party does not hold (`Alike`) stay so: the generator that the party does not know moves by the change of the cross terms, for party 0 also the new shares of a truncation; the factors of a triple move by the change of the hidden shares; induction over the program |
| C96 | `openLying`; specification: `openHonest`, the same program and opening when all are honest | the verification opens the sum of the lies about a product (`mulLying_honest`), an opening that does not fail gives what the honest parties have (`malicious_lying`); a product is refused or the same tensor as without lies; with changed masked operands an accepted product is that of the changed factors (`C96_accepted_product`); induction over the program; the lies that are not noticed by concrete runs |
| C97 | `MPCTensor.getShares`, `RST.getShares`; specification: the list of shares that was distributed, its ring sum, and `reconstruct` | the shares of the first party and of the second are those of the secret in order (`held_cons`); failures by the loop of openings; lies by C10; the sum of the nested lists by induction over the parties |
| C98 | `ShareTensor.init`, `ShareTensor.decode`, all rings; specification: the given numbers as rationals | storing is exact in the range of the type (as in C80); decoding is C02; by cases on the ring |
| C99 | `ShareExpr.eval`, `RstExpr.eval`; specification: session, configuration and ring of the inputs | induction over the expression with the tags of every intermediate share |

Where the code as it stands violates a property, the negation is proved with a concrete witness, what does hold is
proved as a `_partial` theorem and the disagreement is listed below.

## Disagreements between code and properties

Each line: the property, what the code does instead, and the theorem that proves it.

* C01, C02: decoding is computed in float32, so values with more than 24 significant bits come back rounded (`C02_float32_inexact`); a
  small negative number can come back as 0 (`C02_float32_small_negative`); base 1 with a positive precision overflows at `-2^63` (`C02_base_one_overflow`).
* C04, C19: `random_()` draws masks from half of the ring, so a share or an opened mask reveals something about the secret
  (`C04_half_range_leaks`, `C19_half_range_leaks`); how much is bounded by C94.
* C07: a secret whose holder is no party of the session becomes 0 (`C07_outside_holder`); with replicated sharing remote secrets do
  not work (`C07_replicated_broken`).
* C10: with four parties one lie can stay undetected (`C10_four_parties_undetected`; the property is stated for three).
* C14: `rsub` of replicated share tensors has the wrong sign (`C14_replicated_rsub_wrong`, `C14_replicated_rsub_witness`).
* C16: `sum` outside the ring `2^64` leaves the ring (`C16_sum_bit_ring_wrong`, `C16_sum_int32_wrong`).
* C17: `stack` and `cat` ignore the dimension (`C17_stack_dim_ignored`, `C17_cat_dim_ignored`).
* C22: the check of generated triples raises only if all positions are wrong (`C22_wrong_triple_accepted`), and always for tensors
  without elements (`C22_empty_rejected`).
* C23: triples for convolutions are stored without stride, padding, ... (`C23_kwargs_not_in_key`).
* C26: adding `-2^63` to `-2^63` is a wrap that is not counted (`C26_min_pair_missed`).
* C27: the correction of `public_divide` is computed in float32 and is wrong for large shares (`C27_float32_error`).
* C28: with three or more parties `public_divide` changes its operand, tensors that share its objects, and earlier results
  (`C28_operand_changed`, `C28_alias_changed`, `C28_result_changed`).
* C32: the truncation is wrong when the shares wrap (`C32_wrap_witness`; part of the statement).
* C35: for equal operands the result of `private_compare` is the complement of a random bit (`C35_depends_on_draw`).
* C38: comparisons use 32 bits: numbers `2^32` apart are equal (`C38_eq_far_wrong`), an unsigned reading of the masks gives wrong
  results (`C38_le_unsigned_wrong_masks`), an output `-2^31` is not encoded (`C38_min_output_wrong`); only two parties (`C38_only_two_parties`).
* C39: with base 3 the smallest number decodes to 0, so `<` is `<=` (`C39_lt_wrong_base3`).
* C39: with the default scale the product in `1 - eq` wraps if the first party's output of the comparison is -2^31 + 1, and `!=` gives
  1 - 2^32 (`C39_fss_ne_wrong`).
* C40: the caller's list is sorted in place (part of `C40_sort`).
* C41, C55, C62: ties make `argmax`, `max`, `max_pool2d` and `softmax` wrong (`C41_ties_wrong`, `C41_max_ties_wrong`, `C55_pool_ties_wrong`,
  `C62_softmax_ties_wrong`); `argmax()` of a column is wrong (`C41_shape_wrong`; C85 has all shapes).
* C42: `x ** 0` is the number 1, not a secret (`C42_zero_not_secret`).
* C46: a second `setup_mpc` fails (`C46_second_setup_fails`).
* C47: `share()` with keyword arguments returns a tensor of an older session, or leaves a broken session behind
  (`C47_history_dependent`, `C47_poisoned_session`).
* C48: gradients are lost when an intermediate result is also used elsewhere (`C48_side_use_loses_gradient`), through `rsub`
  (`C48_rsub_loses_gradient`), or with a second `backward` (`C48_second_backward`); `backward` on a leaf, on a refused tensor, or an
  operation that raises stop all recording (`C48_leaf_stops_recording`, `C48_refused_loss_stops_recording`,
  `C48_failed_operation_stops_recording`); division with broadcasting and products with vectors fail (`C48_division_shape`,
  `C48_matrix_vector_fails`, `C48_vector_vector_fails`, `C48_vector_matrix_fails`).  `conv2d` is differentiated only for one image with one
  channel (`C48_conv2d_channels_fail`), sizes that are numbers (`C48_conv2d_pairs_fail`), square kernels (`C48_conv2d_rectangle_fails`), no
  padding and strides without remainder (`C48_conv2d_image_height`, `C48_conv2d_wrong_shape`); a bias as third operand makes `backward`
  raise (`C48_conv2d_bias_fails`), and the kernels and the bias of a `Conv2d` layer get no gradient (`C48_conv2d_layer_not_trained`).
* C48, C55: the gradient of `max_pool2d` has the wrong shape for four dimensions with padding (`C55_pool_padding_wrong_shape`), and raises
  for a number of dimensions other than three or four (`C55_pool_dimensions_fail`) and with `return_indices=True`
  (`C55_pool_indices_fail`); ties double the maximum and send the gradient to several places (`C55_pool_ties`), and where the padding is
  larger than the image the gradient is lost (`C55_pool_padding_wins`).
* C49: an operand of size 1 broadcast against an empty dimension gets a gradient of the wrong shape (`C49_empty_wrong`).
* C50: the log misses what was taken from stock (`C50_stocked_start`), comparisons make new keys anyway (`C50_comparisons_generate`), a
  log that JSON cannot write is lost (`C50_log_lost`).
* C53: the method `chebyshev-aliter` of `sigmoid` does not clip: beyond 8 in absolute value its polynomial leaves the interval from 0 to 1
  and grows without bound (`C53_sigmoid_aliter_unbounded`); within 8 it stays inside (`C53_sigmoid_aliter_range`).  So does `maclaurin`
  (`C53_maclaurin_unbounded`; within 0.1 for `|x| <= 8`, `C53_maclaurin_accuracy`).
* C54, C61: public xor is wrong for scaled tensors (`C54_scaled_public_wrong`, `C61_public_xor_scale_wrong`) and for additive sharing
  (`C61_public_xor_additive_wrong`).
* C55: padding is -25 quanta, so negative images are wrong (`C55_pool_padding_wrong`); paddings of more than half of the kernel are
  accepted (`C55_pool_wide_padding_wrong`).
* C56: SGD over a generator steps once (`C56_sgd_generator`, `C56_sgd_generator_zero_first`); a missing gradient stops the step half way
  (`C56_missing_gradient`).
* C57: the party's copy of a session has the type and range of `2^64` (`C57_copy_wrong_type`).
* C59: after primitives were made beforehand for fewer elements, a comparison fails (`C59_shortage`).
* C60: the first party alone chooses the ring of an opening (`C60_first_party_chooses_ring`).
* C63: the shape is computed a second time without the arguments: convolutions with groups or with a kernel larger than the image without its
  padding raise (`C63_default_shape`, `C63_refused`); public kernels, public biases of several elements and replicated sharings
  raise (`C63_public_kernel`, `C63_public_bias`, `C63_replicated`).
* C64: networks with a `Flatten` layer are shared and cannot be reconstructed (`C64_flatten_not_reconstructed`); a `Flatten` at a party and
  other layers raise `KeyError` (`C64_unknown_layer_refused`); a convolution without bias is shared and raises in `forward` and in
  `reconstruct` (`C64_conv_without_bias`); one with groups cannot be reconstructed (`C64_groups_not_reconstructed`); `eq_close` of layers
  without bias raises (`C64_eq_close_without_bias`).
* C65: a convolution at a party loses its stride, padding, dilation and groups in silence (`C65_remote_attributes_lost`); the parameters
  of a shared convolution do not require gradients (`C65_conv_not_trainable`).
* C66: adding a public tensor that is larger than the secret changes the first share only: `sum()` of the result is wrong
  (`C66_enlarged_sum_wrong`) and a product with it raises `EmptyPrimitiveStore` (`C66_enlarged_product_fails`); so does a secret without
  dimensions plus a number (`C66_scalar_plus_number`); a shape given as a list makes every operation raise (`C66_list_shape_fails`);
  `-=` and division by a larger public tensor keep the old shape (`C66_isub_stale_shape`, `C66_divide_stale_shape`); `dim()` always raises
  (`C66_dim_fails`).
* C67: a share without a session equals shares of two different sessions, so equality of shares is not transitive
  (`C67_share_not_transitive`); shares of different shapes can be equal because torch broadcasts (`C67_share_shapes_ignored`); the ring of
  additive shares is not compared (`C67_share_ring_ignored`); of replicated shares only the concatenation is compared
  (`C67_replicated_split_ignored`).
* C68: an adder that fails at one party leaves the primitives in the stores of the parties before it (`C68_half_delivered`).  Asking
  for triples by `nr_instances` is a `TypeError`, since the getters take a shape there (`C68_triples_by_number`).
* C69: `mse_loss` with the mean divides by the length of the first dimension: with several elements per entry the result is larger than torch's by that number (`C69_matrix_mean_wrong`, `C69_mean_of_matrices`).
* C71: dividing or shifting replicated shares that wrap around gives a wrong quotient (`C71_divide_wrap_wrong`); concatenation forgets the ring, so bits are opened as numbers (`C71_cat_ring_wrong`), and has no branch for ABY3 (`C71_cat_other_protocol`).
* C72: `decompose` divides in float32: numbers above `2^24` are rounded first and negative numbers give entries -1 (`C72_rounded`, `C72_negative`).
* C74: random tensors are drawn from half of the ring (`C04_half_range_leaks`, `C19_half_range_leaks`); C74 is proved for tensors drawn from
  all of it.  The divisions by the scale of three or more parties open further values, which are not part of the view of C74.
* C76: as C74, for tensors drawn from all of the ring.  The coordinator of the session is no party, but `ABY3.truncate`
  (`aby3.py:136-149`) collects all shares of every product there: it learns each intermediate product of the secrets
  (`C76_coordinator_sees_products`).
* C77: the result has the dimensions of the argument in reverse order: matrices are transposed (`C77_transposed`), so only numbers and
  vectors are right (`C77_tensor_partial`).  The docstring of `chebyshev_series` gives the nodes with `4 n` instead of `2 n`; the code is right.
* C13: in the bit ring a public number of absolute value at least 1 is encoded as 1 (`.to(torch.bool)` of its
  integer part), so `x + 2` flips the bit although 2 is zero modulo 2 (`C13_bit_even_wrong`).
* C79: `public_divide` opens the number of wraps of the shares of the dividend and gives the correction made of it to the first
  party; two parties of three can thereby tell 0 from -2 (`C79_wraps_leak`).  In CrypTen, from where the algorithm is taken, the number
  of wraps stays shared.
* C80: numbers beyond the type are stored wrongly without an error: in the ring 2 every even number but 0 becomes 1, in the prime ring
  numbers are reduced modulo 256 and not 67, in small rings with the default scale fractions are lost (`C80_small_rings`).  The round trip
  `C80_round_trip` assumes that the encodings can be stored.
* C82: a public tensor that enlarges a replicated secret in a sum gives shares of different shapes: `sum` of the result is wrong, and so is the square, silently, because the masks of the parties have different shapes and do not cancel (`C82_enlarged_sum_wrong`, `C82_enlarged_product_wrong`).
* C82: `transpose`, `squeeze`, `reshape`, `flatten`, `narrow` and `dim` of replicated secrets raise `AttributeError` (`C82_methods_missing`).
* C82: products without elements raise `ValueError` with malicious security (`C82_empty_malicious_refused`).
* C84: `x ** q` with a fraction `q` is not refused where gradients are not recorded: the result is the even power below `q`, and the number 1 for `q < 2` (`C84_fractional_power`); the square root `x ** 0.5` is 1.  Where gradients are recorded, `x ** 0` raises `AttributeError` (`C84_zero_power_recorded`).
* C84: a public value minus a secret and a public matrix times a secret are lost for training (`C84_reflected_untracked`); `x -= y` changes the tensor for all variables bound to it and does not record `y` (`C84_in_place`), the other assignments of this kind make a new tensor (`C84_rebound`).
* C84: `relu` and `max_pool2d` are methods of secrets only while gradients are recorded (`C84_names_only_recorded`); secrets have no unary minus, `//`, `%`, and no `**` or `^` with a public left side (`C84_missing_operators`).
* C85: without `dim`, `argmax()` raises `ValueError` and `max()` raises `RuntimeError` for every tensor with at least two entries in the last
* C87: a parameter that the loss does not use stops the loop: `step` raises `TypeError` (`None * lr`), where torch leaves such a parameter alone (`C87_unused_parameter`).
* C88: `fss_op` reconstructs the masked difference at the caller modulo 2^64, with masks of 32 bits, and reduces it modulo 2^32 afterwards (`fss.py:164-165`): the caller learns the difference of the secrets up to 2^33 quanta (`C88_caller_learns_difference`, `C88_caller_tells_apart`).  The parties are shown the remainder only (`C88_party_view_partial`).
  dimension and another dimension with more than one (`C85_argmax_matrix_fails`, `C85_max_matrix_fails`), and both are wrong for columns
  (`C85_column_wrong`, `C85_max_column`): the number of comparisons an element must win is taken from the shape before flattening, and the
  flattened one hot vector is multiplied with the tensor that was not flattened.  Tensors without dimensions raise `IndexError`
  (`C85_scalar_fails`), and ties are added up along a dimension without an exception (`C85_ties_wrong`).
* C93: as C74, for tensors drawn from all of the ring, and without what the divisions of three or more parties open.
* C95: as C93 (numbers drawn from all of the ring). Public operands that enlarge a secret are left out: the shares then have different shapes (C82).
* C96: three kinds of lies are not noticed. The shares that are truncated after a product are fetched from parties 0 and 1 without a check
  (`C96_truncation_forged`). A triple is refused only if it is wrong at all positions, so the same lie about one element of the product and of
  the triple passes the verification (`C96_triple_forged`). The masked operands are opened without a check, so a party that guesses a factor can
  change the product (`C96_guess_forged`). `C96_one_liar_partial` covers all other lies, and
  `C96_accepted_product` says what a product is that is accepted although masked operands were changed: that of the changed factors.
* C97: with malicious security `get_shares` returns what each party holds, a list of lists, not a list of shares; all of it adds up to the
  secret times the number of parties but one (`C97_malicious_nested`).
* C98: in the ring 2 the scale stays on (replicated shares turn it off), so whatever number is given, nothing or one quantum comes back
  (`C98_bit_ring_wrong`): a one comes back as 1/65536 (`C98_one_in_bit_ring`).  `C98_round_trip_partial` assumes that the encodings fit the
  type.  Without data the ring is not checked (`C98_rings`).
* C99: forwarded methods, `T` and divisions say that their result is in the ring `2**64`, whatever the ring is (`C99_ring_forgotten`); the
  next sum or product of a session sets it right again (`C99_session`).  Nothing is lost in the ring `2**64` (`C99_default_ring_partial`).
  A replicated share without a session does not join the session of the second operand; public numbers are then added by every party
  (`C99_replicated_not_joined`).

## Axioms of the theorems

<!-- axioms -->
* propext (45): C01_scale_invariant, C03_degenerate, C10_four_parties_undetected, C14_replicated_rsub_witness, C17_cat_dim_ignored, C17_stack_dim_ignored, C32_refused, C33_not_a_bit, C37_noncanonical_counterexample, C37_ring_type, Tensor.C49_empty_wrong, C56_zero_grad, C57_copy_wrong_type, C63_transposed_refused, Shape.C66_len, Shape.C66_enlarged_sum_wrong, Shape.C66_enlarged_product_fails, Shape.C66_scalar_plus_number, Shape.C66_list_shape_fails, Shape.C66_unknown_shape, Shape.C66_isub_stale_shape, Shape.C66_divide_stale_shape, Equality.C67_session_eq, Equality.C67_session_equivalence, Equality.C67_session_new, Equality.C67_share_not_transitive, Equality.C67_share_shapes_ignored, Equality.C67_replicated_split_ignored, Provider.C68_logged, Provider.C68_half_delivered, RShape.C82_share, RShape.C82_methods_missing, RShape.C82_enlarged_sum_wrong, RShape.C82_enlarged_product_wrong, Operators.C84_names, Operators.C84_names_only_recorded, Operators.C84_names_of_operators, Argmax.C85_ties_wrong, Argmax.C85_column_wrong, C97_additive, C97_malicious_checked, C99_replicated, C99_session, C99_default_ring_partial, C99_alone_partial
* Quot.sound, propext (56): C03_no_shares, C05_przs_sum_zero, C05_przs_sum_zero_additive, C07_shape_required, C09_rejection_is_value_error, C11_private_linear_additive, C11_isub_additive, C12_public_linear_additive, C14_share_rsub, C15_public_product_additive, C16_additive_map, C17_stack_shapes, C26_no_shares, C34_refused, C37_getOp_total, C42_negative, C42_zero_not_secret, C43_refused, C44_replicated_mixing_refused, C44_mixing_refused, C44_public_route, C44_same_session, C44_shares_of_different_sessions, RProgram.C45_before_setup_replicated, C45_remote_before_setup_replicated, C45_session_guards, C45_before_setup, C45_setup_ready, C46_first_setup_partial, C46_second_setup_fails, Grad.C48_leaf_stops_recording, Grad.C48_used_loss_sends_nothing, Grad.C48_failed_operation_stops_recording, C51_newton, C52_log_fixed, C57_copy_partial, C58_instantiate_refused, C58_register, C58_registry_invariant, C58_instantiate, C60_first_party_chooses_ring, C61_session_needed, Equality.C67_share_symm, Equality.C67_share_order_meaningless, Provider.C68_register, Provider.C68_first_registration, Provider.C68_refused, Provider.C68_no_adder, Provider.C68_hooks, C70_share_alone, C70_left_product, C71_cat_ring_wrong, C80_items, C80_no_item, C99_joins, C99_ring_forgotten
* Classical.choice, Quot.sound, propext (446): C01_encode_decode_error, C01_encode_odd, C01_encode_monotone, C01_float32_error, C02_decode_exact, C02_decode_int, C02_decode_encode, C02_decode_float, C02_base_one_overflow, C02_float32_partial, C02_float32_inexact, C02_float32_small_negative, C02_float32_error, C03_distribute_decides, C03_share_reconstruct, C03_mpctensor_reconstruct, C03_get_decoded, C04_views_independent_partial, C04_half_range_leaks, C06_prrs_consistent, C07_remote_secret_partial, C07_outside_holder, C07_replicated_broken, C08_replicated_roundtrip, C09_malicious_opening_sound, C10_three_party_detects, C11_private_linear_replicated, C11_linear_programs_replicated, C11_linear_programs, C13_prime_public_numbers, C13_bit_public_numbers, C13_bit_even_wrong, C13_public_linear_replicated, C14_rsub_two_partial, C14_replicated_rsub_wrong, C15_public_mul_replicated, C16_additive_map_replicated, C16_reindex_replicated, C16_sum_replicated, C16_sum_bit_ring_wrong, C16_sum_int32_wrong, C16_reindex, C16_sum, C17_stack_partial, C17_cat_partial, C17_cat_dims, C17_stack_dims, C18_spdz_products, C18_spdz_reconstruct, C19_masks_hide_partial, C19_half_range_leaks, C20_triples_used_once, C21_key_injective, C21_store_is_queues, C22_check_partial, C22_wrong_triple_accepted, C22_single_element, C22_generated, C22_empty_rejected, C23_conv_triples_partial, C23_kwargs_not_in_key, C24_two_party_division, C25_two_party_products, C25_fixed_point_product, C26_count_wraps_partial, C26_count_wraps_no_min_partial, C26_min_pair_missed, C26_count_wraps_error, C27_public_divide_integers_partial, C27_public_divide_pow2_partial, C27_float32_error, C27_tensors_pow2_partial, C28_programs_on_values_partial, C28_three_parties_partial, C28_operand_changed, C28_alias_changed, C28_result_changed, C29_product, C29_mul, C29_bit, C29_pow, C29_prime, C29_matmul, C30_honest, C30_same_shares, C30_runs, C31_verification, C31_tampered, C32_wraps_count, C32_product_wraps_rare, C32_truncate, C32_truncate_base2, C32_wraps_iff, C32_wrap_witness, C32_product, C33_injection, C34_decomposition, C34_ttp, C35_compare_partial, C35_empty, C35_decomposed_partial, C35_depends_on_draw, C36_select, C36_selector_ring, C37_prime_ring_ops, C37_rings_implemented, C38_only_two_parties, C38_eq_partial, C38_eq_near_partial, C38_eq_far_wrong, C38_le_partial, C38_le_signed_partial, C38_le_unsigned_partial, C38_le_unsigned_wrong_masks, C38_min_output_wrong, C39_ge, C39_lt, C39_gt, C39_trichotomy, C39_lt_wrong_base3, C39_ne_partial, C39_ne_exact, C39_fss_correct, C39_fss_ne, C39_only_two_parties, C39_fss_ne_wrong, C40_sort_session, C40_sort_integers, C40_sort, C40_sort_exact, C40_wrong_shape, C41_argmax_session_partial, C41_max_integers_partial, C41_ties_wrong, C41_max_ties_wrong, C41_shape_wrong, C41_argmax_dim_partial, C41_max_dim_partial, C41_argmax_partial, C41_max_counts, C41_max_partial, C41_fibres, C42_replicated_partial, C42_power_sound, C42_power_session, C42_power_integers, Scaled.C42_replicated_scaled, C43_schedule_independent, C43_can_finish, C43_sequential_reading, C47_parties_partial, C47_history_dependent, C47_poisoned_session, C47_accepted, Autograd.C48_record, Autograd.C48_traversal, Grad.C48_gradients_partial, Grad.C48_refused_loss_stops_recording, Grad.C48_square, Grad.C48_side_use_loses_gradient, Grad.C48_second_backward, Grad.C48_rsub_loses_gradient, Grad.C48_division_shape, Grad.C48_matrix_vector_fails, Grad.C48_vector_vector_fails, Grad.C48_vector_matrix_fails, Grad.C48_conv2d_channels_fail, Grad.C48_conv2d_pairs_fail, Grad.C48_conv2d_image_height, Grad.C48_conv2d_wrong_shape, Grad.C48_conv2d_rectangle_fails, Grad.C48_conv2d_value, Grad.C48_conv2d_layer_not_trained, Grad.C48_conv2d_bias_fails, Grad.C48_gradients_rounded_partial, Tensor.C49_sums_copies_partial, Tensor.C49_adjoint_partial, Tensor.C49_operands_partial, C50_replay_partial, C50_stocked_start, C50_comparisons_generate, C50_log_lost, C51_newton_converges, C51_reciprocal, C51_reciprocal_accuracy, C51_truediv, C51_reciprocal_log, C51_reciprocal_log_accuracy, C51_truediv_sound, C51_reciprocal_sound, C51_reciprocal_session, C51_truediv_session, C52_exp, C52_exp_error, C52_log, C52_log_step, C52_log_accuracy, C52_exp_sound, C52_exp_accuracy_sound, C52_exp_session, C53_hardtanh, C53_chebyshev, C53_sigmoid_exp, C53_tanh_odd, C53_sigmoid_maclaurin, C53_tanh_chebyshev, C53_sigmoid_chebyshev, C53_sigmoid_aliter, C53_sigmoid_aliter_range, C53_sigmoid_aliter_unbounded, C53_sigmoid_accuracy, C53_sigmoid_methods, C53_tanh_methods, C53_maclaurin_accuracy, C53_maclaurin_unbounded, C53_sigmoid_sound, C53_tanh_sound, C53_sigmoid_session, C53_tanh_session, C54_private, C54_public, C54_scaled_public_wrong, Scaled.C54_scaled_private, Grad.C55_pool_gradient_partial, Grad.C55_pool_padding_wrong_shape, Grad.C55_pool_dimensions_fail, Grad.C55_pool_indices_fail, Grad.C55_pool_ties, Grad.C55_pool_padding_wins, C55_relu, C55_pool_arguments, C55_pool_arguments_error, C55_pool_refused, C55_pool_partial, C55_pool_padding_partial, C55_relu_session, C55_pool_session_partial, C55_pool_ties_wrong, C55_pool_padding_wrong, C55_pool_wide_padding_wrong, C55_pool_windows, C56_linear_partial, C56_state_dict_round_trip, C56_sgd_step_partial, C56_missing_gradient, C56_sgd_generator, C56_sgd_generator_zero_first, C59_once, C59_no_reuse, C59_matching, C59_on_the_fly, C59_shortage, C60_other_party_cannot_partial, C60_first_party_outcomes, C61_public_xor_additive_wrong, C61_public_xor_replicated_partial, C61_public_xor_scale_wrong, C62_log_softmax_accuracy_partial, C62_softmax_session_partial, C62_softmax_sound_partial, C62_softmax_partial, C62_softmax_ties_wrong, C62_log_softmax_partial, Conv.C63_places, Conv.C63_places_transposed, Conv.C63_two_parties_partial, Conv.C63_many_parties_partial, Conv.C63_transposed_accepted, Conv.C63_default_shape, Conv.C63_refused, Conv.C63_public_kernel, Conv.C63_public_bias, Conv.C63_replicated, Conv.C63_many_divided_partial, C63_kernel_fits, Module.C64_round_trip_partial, Module.C64_eq_close, Module.C64_eq_close_decides, Module.C64_eq_close_without_bias, Module.C64_flatten_not_reconstructed, Module.C64_unknown_layer_refused, Module.C64_conv_without_bias, Module.C64_groups_not_reconstructed, Module.C64_wrong_dims_refused, Module.C65_conv_layer_partial, Module.C65_remote_attributes_lost, Module.C65_conv_not_trainable, Module.C65_attributes_checked, C66_dimension_numbers, Shape.C66_reconstruct, Shape.C66_share, Shape.C66_methods, Shape.C66_private, Shape.C66_public_partial, Shape.C66_public_sum_value, Shape.C66_product, Shape.C66_programs_partial, Shape.C66_dim_fails, Shape.C66_method_elements, Shape.C66_sum_elements, Shape.C66_sum_all, Equality.C67_session_ring, Equality.C67_share_eq_partial, Equality.C67_share_refl, Equality.C67_share_ring_ignored, Equality.C67_replicated_eq_partial, Equality.C67_share_order, C68_triples_delivered, C68_triples_requested, C68_triples_by_number, C68_not_registered, C68_wraps_not_stored, Provider.C68_delivery, Provider.C68_not_transferred, C69_mse_exact, C69_mean_of_matrices, C69_matrix_mean_wrong, C69_mse_sound_partial, C69_rtruediv_sound_partial, C69_mse_session_partial, C69_rtruediv_session_partial, C70_rmatmul_two, C70_rmatmul_many_partial, C70_rmatmul_matrices_partial, C71_divide_partial, C71_shift_partial, C71_shift_range, C71_shift_refused, C71_divide_accepts, C71_public_matmul, C71_cat_partial, C71_divide_wrap_wrong, C71_cat_other_protocol, C71_without_session, C72_bits_partial, C72_bits_prime, C72_negative, C72_rounded, Program.C73_programs, Program.C73_integer_programs, Program.C73_division_by_one, Program.C74_views_partial, Program.C74_opening_partial, RProgram.C75_programs, RProgram.C75_integer_programs, RProgram.C76_views_partial, RProgram.C76_coordinator_sees_products, Chebyshev.C77_coefficients, Chebyshev.C77_interpolates, Chebyshev.C77_tanh_accuracy, Chebyshev.C77_sigmoid_accuracy, Chebyshev.C77_tensor_partial, Chebyshev.C77_transposed, C77_tanh_sound, C77_sigmoid_sound, C77_tanh_session, C77_sigmoid_session, RProgram.C78_replicated_programs, C78_two_party_programs, C78_many_parties, DivideView.C79_division_views_partial, DivideView.C79_wraps_leak, C79_programs_partial, C80_round_trip, C80_rings, C80_small_rings, C80_properties, Shape.C81_two_party_programs, Shape.C81_many_party_programs, RShape.C82_reconstruct, RShape.C82_reconstruct_decides, RShape.C82_private, RShape.C82_methods, RShape.C82_tampered_product_refused, RShape.C82_product, RShape.C82_empty_malicious_refused, RShape.C82_public_partial, RShape.C82_programs_partial, RShape.C83_replicated_programs, Operators.C84_expressions_partial, Operators.C84_tracking_partial, Operators.C84_not_recorded, Operators.C84_missing_operators, Operators.C84_fractional_power, Operators.C84_fractional_power_recorded, Operators.C84_zero_power_recorded, Operators.C84_reflected_untracked, Operators.C84_in_place, Operators.C84_rebound, Argmax.C85_one_hot, Argmax.C85_argmax_sums, Argmax.C85_max_sums, Argmax.C85_argmax_partial, Argmax.C85_max_partial, Argmax.C85_bad_dimension, Argmax.C85_argmax_flat, Argmax.C85_argmax_matrix_fails, Argmax.C85_max_matrix_fails, Argmax.C85_scalar_fails, Argmax.C85_row_partial, Argmax.C85_max_column, Network.C86_inference, Network.C86_same_class, Grad.C87_round, Grad.C87_unused_parameter, Grad.C87_training, Grad.C87_regression, C88_party_view_partial, C88_caller_learns_difference, C88_caller_tells_apart, C88_shown_is_remainder, C89_comparisons_alone, C89_products_shared, C89_setup_sessions, C90_refused_products, C90_refused_triples, Shape.C91_two_parties, Shape.C91_many_parties, RShape.C91_replicated, LinearTraining.C92_layer_two_parties, LinearTraining.C92_layer_many_parties, LinearTraining.C92_layer_replicated, Regression.C92_two_parties, Regression.C92_many_parties, Regression.C92_replicated, Shape.C93_two_parties_partial, Shape.C93_many_parties_partial, C94_sharing, C94_last_party, C94_exact, C94_opened, RShape.C95_one_party_partial, RShape.C96_one_liar_partial, RShape.C96_without_lies, RShape.C96_accepted_product, RShape.C96_truncation_forged, RShape.C96_triple_forged, RShape.C96_guess_forged, C97_semi_honest_partial, C97_three_party_honest, C97_malicious_nested, C98_round_trip_partial, C98_rings, C98_bit_ring_wrong, C98_one_in_bit_ring, C99_replicated_not_joined
