import Verif.Lemmas.Conv
import Verif.Props.Layer

/-!
# C63: private convolutions
-/

namespace SyMPC.Conv

open Machine (ofShares_inv)

/-! ## Integers in the ring -/

/-- integers as elements of the ring -/
def ofIntHom : ℤ →+* I64 where
  toFun := BitVec.ofInt 64
  map_one' := rfl
  map_mul' := fun a b => BitVec.ofInt_mul a b
  map_zero' := rfl
  map_add' := fun a b => BitVec.ofInt_add a b

theorem textbook_map {R S : Type} [CommRing R] [CommRing S] (f : R →+* S) (op : ConvOp) (a : Args) (xs ws : List Nat) (x w : List Nat → R)
    (n m i j : Nat) : f (textbook op a xs ws x w n m i j) = textbook op a xs ws (fun l => f (x l)) (fun l => f (w l)) n m i j := by
  have hu : ∀ h v n c (i j : Int), f (unbounded h v x n c i j) = unbounded h v (fun l => f (x l)) n c i j := by
    intro h v n c i j
    unfold unbounded
    rw [apply_ite f, map_zero]
  unfold textbook
  split
  · simp only [crossCorrelation, map_sum, map_mul, hu]
  · simp only [kernelCopies, map_sum, apply_ite f, map_mul, map_zero]
  · exact map_zero f

/-- the textbook's convolution of the integers that two ring tensors stand for -/
def exact (op : ConvOp) (a : Args) (xs ws : List Nat) (x w : List Nat → I64) (n m i j : Nat) : Int :=
  textbook op a xs ws (fun l => (x l).toInt) (fun l => (w l).toInt) n m i j

theorem exact_ring (op : ConvOp) (a : Args) (xs ws : List Nat) (x w : List Nat → I64) (n m i j : Nat) :
    BitVec.ofInt 64 (exact op a xs ws x w n m i j) = textbook op a xs ws x w n m i j := by
  have := textbook_map ofIntHom op a xs ws (fun l => (x l).toInt) (fun l => (w l).toInt) n m i j
  have e : ∀ b : I64, ofIntHom b.toInt = b := fun b => BitVec.ofInt_toInt
  simp only [e] at this
  exact this

/-! ## Shapes -/

/-- C63: the result has one pixel for each place of the kernel inside of the padded image. -/
theorem C63_places (n k s p d m : Nat) (h : outDim n k s p d = .ok m) (i : Nat) :
    i < m ↔ i * s + (k - 1) * d < n + 2 * p := by
  unfold outDim at h
  split at h
  · cases h
  next hc =>
    simp only [not_or, not_lt] at hc
    obtain ⟨h1, h2, h3, h4⟩ := hc
    cases h
    rw [Nat.lt_succ_iff, Nat.le_div_iff_mul_le (by omega), mul_comm d] at *
    omega

/-- C63: the result of a transposed convolution reaches from the first to the last pixel that a copy of the kernel touches, without the
padding on both sides. -/
theorem C63_places_transposed (n k s p d m : Nat) (h : outDimT n k s p d = .ok m) (i : Nat) :
    i < m ↔ i + 2 * p ≤ (n - 1) * s + (k - 1) * d := by
  unfold outDimT at h
  split at h
  · cases h
  next hc =>
    simp only [not_or, not_lt] at hc
    obtain ⟨h1, h2, h3, h4, h5⟩ := hc
    cases h
    rw [mul_comm d] at *
    omega

example : outDim 7 3 2 1 2 = .ok 3 ∧ outDimT 3 3 2 1 2 = .ok 7 := by decide

/-! ## Private convolutions -/

/-- the product before any division -/
theorem conv_step (env : Env) (s : Session) (hs : s.Live env) (rnd : ConvRand) (op : ConvOp) (a : Args)
    (x y : Secret) (hx : x.tensor.WF env) (hy : y.tensor.WF env) (hxs : x.tensor.session = s) (hys : y.tensor.session = s)
    (w : ConvWorld) (q : ConvKey → List Nat) (kwOf : Nat → Args)
    (ts : (k : ConvKey) → Nat → Nat → Triple (List Nat → I64) (List Nat → I64) (List Nat → I64)) (hg : w.Good convOp s q kwOf ts)
    (hkw : ∀ j ∈ q (op, x.shape, y.shape), kwOf j = a) (xv wv : List Nat → I64) (hxv : x.tensor.reconstruct = .ok xv)
    (hwv : y.tensor.reconstruct = .ok wv) :
    ∃ (out : MulOut (List Nat → I64) (List Nat → I64) (List Nat → I64)) (w' : ConvWorld) (q' : ConvKey → List Nat) (kwOf' : Nat → Args)
      (ts' : (k : ConvKey) → Nat → Nat → Triple (List Nat → I64) (List Nat → I64) (List Nat → I64)) (zs : List (List Nat → I64)),
      mulMaster env convOp (fun _ => convTrunc) rnd (op, x.shape, y.shape) a w x.tensor y.tensor = .ok (out, w') ∧
      w'.Good convOp s q' kwOf' ts' ∧ (∀ k, ∀ j ∈ q' k, j ∈ q k ∧ kwOf' j = kwOf j) ∧
      out.result.WF env ∧ out.result.session = s ∧
      out.result.shares.map (·.tensor) = (if s.nrParties = 2 then zs.map (convTrunc s.config) else zs) ∧
      zs.length = s.nrParties ∧ zs.sum = op.at a x.shape y.shape xv wv := by
  obtain ⟨out, w', q', kwOf', ts', j, zs, a', b', g1, g2, g3, g4, g5, g6, g7, g8, g9, g10, ge, gd, g11, g12, g13, g14, g15⟩ :=
    mul_step env s hs convHom (fun _ => convTrunc) rnd w q kwOf ts hg (op, x.shape, y.shape) a x.tensor y.tensor hx hy hxs hys
  have hj : kwOf' j = a := by
    rcases g8 with ⟨h, h'⟩ | ⟨-, -, h, -, -⟩
    · rw [g7 j (hg.bound _ _ h)]
      exact hkw _ h
    · exact h
  refine ⟨out, w', q', kwOf', ts', zs, g1, g2, ?_, ⟨by rw [g11]; exact hs.toReady, by rw [g12, g11]⟩, g11, g13, g14, ?_⟩
  · intro k j hj
    exact ⟨g5 k j hj, g7 j (hg.bound k j (g5 k j hj))⟩
  · rw [WF.reconstruct hx] at hxv
    rw [WF.reconstruct hy] at hwv
    rw [g15, hj, sub_self, add_zero, convHom_apply, ← Except.ok.inj hxv, ← Except.ok.inj hwv]
    rfl

/-- the bias of a convolution with `c` channels, and the elements it adds -/
inductive BiasIs (env : Env) (s : Session) (c : Nat) : Bias → (Nat → I64) → Prop
  | none : BiasIs env s c .none fun _ => 0
  | secret (b : Secret) (v : List Nat → I64) (hwf : b.tensor.WF env) (hsess : b.tensor.session = s) (hshape : b.shape = [c])
      (hv : b.tensor.reconstruct = .ok v) : BiasIs env s c (.secret b) fun m => v [m]
  | pub (b : Tensor FixedPointEncoder.Val) (hshape : b.shape = [1]) :
      BiasIs env s c (.pub b) fun _ => s.config.encoder.encode (b.at_ [0])

def spreadHom (bs : List Nat) : (List Nat → I64) →+ (List Nat → I64) := AddMonoidHom.mk' (spreadBias bs) fun _ _ => rfl

theorem broadcastDim_one (i : Nat) : Tensor.broadcastDim i 1 = .ok i := by
  unfold Tensor.broadcastDim
  by_cases h : i = 1 <;> simp [h]

theorem broadcast_bias (n c i j : Nat) : Tensor.broadcastShape [n, c, i, j] [c, 1, 1] = .ok [n, c, i, j] := by
  simp only [Tensor.broadcastShape, List.reverse_cons, List.reverse_nil, List.nil_append, List.cons_append, Tensor.broadcastRev,
    broadcastDim_one, ok_bind]
  simp [Tensor.broadcastDim, ok_bind, pure_eq_ok, Functor.map, Except.map]

theorem broadcast_number (n c i j : Nat) : Tensor.broadcastShape [n, c, i, j] [1, 1, 1] = .ok [n, c, i, j] := by
  simp only [Tensor.broadcastShape, List.reverse_cons, List.reverse_nil, List.nil_append, List.cons_append, Tensor.broadcastRev,
    broadcastDim_one, ok_bind]
  simp [ok_bind, pure_eq_ok, Functor.map, Except.map]

theorem encode_zero (e : FixedPointEncoder) (v : FixedPointEncoder.Val) (h : valZero v = true) : e.encode v = 0 := by
  unfold valZero at h
  unfold FixedPointEncoder.encode FixedPointEncoder.encodeInt
  cases v with
  | int z => simp at h; subst h; simp
  | long z => simp at h; subst h; simp
  | float z => simp at h; subst h; simp [FixedPointEncoder.truncRat]

theorem addBias_ok (env : Env) (s : Session) (bias : Bias) (bv : Nat → I64) (n c i j : Nat) (hb : BiasIs env s c bias bv) (r : MPCTensor (List Nat → I64))
    (hr : r.WF env) (hrs : r.session = s) :
    ∃ (z : MPCTensor (List Nat → I64)) (zv : List Nat → I64), addBias env bias ⟨r, [n, c, i, j]⟩ = .ok ⟨z, [n, c, i, j]⟩ ∧ z.WF env ∧
      z.session = s ∧ z.reconstruct = .ok zv ∧ ∀ n m i j, m < c → zv [n, m, i, j] = r.value [n, m, i, j] + bv m := by
  cases hb with
  | none => exact ⟨r, _, rfl, hr, hrs, WF.reconstruct hr, fun _ _ _ _ _ => by rw [add_zero]; rfl⟩
  | secret b v h1 h2 h3 h4 =>
    rcases Nat.eq_zero_or_pos c with hc | hc
    · subst hc
      refine ⟨r, _, ?_, hr, hrs, WF.reconstruct hr, fun _ _ _ _ h => absurd h (Nat.not_lt_zero _)⟩
      unfold addBias Bias.truth
      dsimp only
      rw [h3]
      rfl
    · obtain ⟨y, t1, t2, t3⟩ := C16_additive_map env (spreadHom [c]) b.tensor h1 _ h4
      have t4 : y.session = s := by rw [ofShares_inv t1]; exact h2
      obtain ⟨z, u1, u2, u3, u4⟩ := priv_ok (P := Empty) env .add r y hr t2 (by rw [t4, hrs]) _ _ (WF.reconstruct hr) t3
      refine ⟨z, _, ?_, u3, by rw [u2, hrs], u4, ?_⟩
      · have t1' : MPCTensor.hookMethod (spreadBias [c]) b.tensor = .ok y := t1
        unfold addBias Bias.truth
        dsimp only
        rw [h3]
        simp only [ok_bind, bne_iff_ne, ne_eq, Nat.pos_iff_ne_zero.mp hc, not_false_eq_true, if_true, List.cons_append, List.nil_append,
          broadcast_bias, t1', u1, pure_eq_ok]
      · intro n m i j hm
        show r.value [n, m, i, j] + spreadBias [c] v [n, m, i, j] = _
        congr 1
        unfold spreadBias Tensor.sourceIdx
        by_cases h : c = 1
        · have : m = 0 := by omega
          simp [h, this]
        · simp [h]
  | pub b h3 =>
    cases hz : valZero (b.at_ [0]) with
    | true =>
      refine ⟨r, _, ?_, hr, hrs, WF.reconstruct hr, fun _ _ _ _ h => ?_⟩
      · unfold addBias Bias.truth
        dsimp only
        rw [h3]
        simp only [List.prod_cons, List.prod_nil, mul_one, if_true, List.map_cons, List.map_nil, hz, ok_bind]
        rfl
      · rw [encode_zero _ _ hz, add_zero]
        rfl
    | false =>
      obtain ⟨z, u1, u2, u3, -, u4⟩ := pub_ok env .add r (spreadBias [1] b.at_) hr _ (WF.reconstruct hr)
      refine ⟨z, _, ?_, u3, by rw [u2, hrs], u4, ?_⟩
      · unfold addBias Bias.truth
        dsimp only
        rw [h3]
        simp only [List.prod_cons, List.prod_nil, mul_one, if_true, List.map_cons, List.map_nil, hz, ok_bind, Bool.not_false,
          List.cons_append, List.nil_append, broadcast_number, u1, pure_eq_ok]
      · intro n m i j _
        show r.value [n, m, i, j] + r.session.config.encoder.encode (spreadBias [1] b.at_ [n, m, i, j]) = _
        rw [hrs]
        rfl

/-- a position of a result of the given shape -/
def Inside (s : List Nat) (n m i j : Nat) : Prop := ∃ N M I J, s = [N, M, I, J] ∧ n < N ∧ m < M ∧ i < I ∧ j < J

/-- C63 (partial): a private convolution of two parties, without a bias, with a secret bias or with one public number as bias, in any state of the stores in which the triples
for these shapes were made with the same arguments.  Image, kernel and bias are secrets with any numbers.  The shape is torch's.
The shares of the result are two shares `z0`, `z1` of the untruncated convolution divided by the scale, plus those of the bias.  Where the
textbook's convolution and the bias fit and `z0 + z1` does not leave the ring, the result is the convolution plus the bias, off by less
than two quanta.  Missing: argument combinations that the second computation of the shape refuses, see `C63_refused`, public
kernels and public biases, see `C63_public_kernel` and `C63_public_bias`, and triples made with other arguments, see
`C23_kwargs_not_in_key`. -/
theorem C63_two_parties_partial (env : Env) (s : Session) (hs : s.Live env) (hn : s.nrParties = 2)
    (hadd : s.protocol.shareClass = .additive) (hsc : s.config.encoderBase ^ s.config.encoderPrecision < 2 ^ 63)
    (hb : 0 < s.config.encoderBase) (rnd : ConvRand) (divide : MPCTensor (List Nat → I64) → Py (MPCTensor (List Nat → I64)))
    (op : ConvOp) (a : Args) (x y : Secret) (hx : x.tensor.WF env) (hy : y.tensor.WF env) (hxs : x.tensor.session = s)
    (hys : y.tensor.session = s) (sh sh' : List Nat) (hsh : op.shape a x.shape y.shape = .ok sh)
    (hsh' : op.shape .default x.shape y.shape = .ok sh') (bias : Bias) (bv : Nat → I64)
    (hbias : ∀ c ∈ sh[1]?, BiasIs env s c bias bv)
    (w : ConvWorld) (q : ConvKey → List Nat) (kwOf : Nat → Args)
    (ts : (k : ConvKey) → Nat → Nat → Triple (List Nat → I64) (List Nat → I64) (List Nat → I64)) (hg : w.Good convOp s q kwOf ts)
    (hkw : ∀ j ∈ q (op, x.shape, y.shape), kwOf j = a) (xv wv : List Nat → I64) (hxv : x.tensor.reconstruct = .ok xv)
    (hwv : y.tensor.reconstruct = .ok wv) :
    ∃ (out : MPCTensor (List Nat → I64)) (w' : ConvWorld) (q' : ConvKey → List Nat) (kwOf' : Nat → Args)
      (ts' : (k : ConvKey) → Nat → Nat → Triple (List Nat → I64) (List Nat → I64) (List Nat → I64)) (z0 z1 v : List Nat → I64),
      conv env rnd divide op a x (.inl y) bias w = .ok (⟨out, sh⟩, w') ∧
      w'.Good convOp s q' kwOf' ts' ∧ (∀ k, ∀ j ∈ q' k, j ∈ q k ∧ kwOf' j = kwOf j) ∧
      out.WF env ∧ out.session = s ∧ out.reconstruct = .ok v ∧
      ∀ n m i j, Inside sh n m i j →
        z0 [n, m, i, j] + z1 [n, m, i, j] = BitVec.ofInt 64 (exact op a x.shape y.shape xv wv n m i j) ∧
        (|exact op a x.shape y.shape xv wv n m i j| < 2 ^ 62 → |(bv m).toInt| < 2 ^ 61 →
          -2 ^ 63 ≤ (z0 [n, m, i, j]).toInt + (z1 [n, m, i, j]).toInt → (z0 [n, m, i, j]).toInt + (z1 [n, m, i, j]).toInt < 2 ^ 63 →
          |(v [n, m, i, j]).toInt * (s.config.encoderBase ^ s.config.encoderPrecision : Nat)
            - (exact op a x.shape y.shape xv wv n m i j + (bv m).toInt * (s.config.encoderBase ^ s.config.encoderPrecision : Nat))|
            < 2 * (s.config.encoderBase ^ s.config.encoderPrecision : Nat)) := by
  have hS0 : 0 < s.config.encoderBase ^ s.config.encoderPrecision := Nat.pow_pos hb
  obtain ⟨n, c, hh, vv, o, ci, kh, kw, i, j, -, -, hsh2, -⟩ := shape_ok hsh
  obtain ⟨out, w', q', kwOf', ts', zs, g1, g2, g3, g4, g5, g6, g7, g8⟩ := conv_step env s hs rnd op a x y hx hy hxs hys w q kwOf ts hg hkw
    xv wv hxv hwv
  have hbias' : BiasIs env s (channels op a.groups o ci) bias bv := hbias _ (by rw [hsh2]; rfl)
  obtain ⟨z, zv, b1, b2, b3, b4, b5⟩ := addBias_ok env s bias bv n _ i j hbias' out.result g4 g5
  rw [hn] at g7
  obtain ⟨z0, z1, rfl⟩ : ∃ z0 z1, zs = [z0, z1] := by
    match zs, g7 with
    | [z0, z1], _ => exact ⟨z0, z1, rfl⟩
  rw [if_pos hn] at g6
  refine ⟨z, w', q', kwOf', ts', z0, z1, zv, ?_, g2, g3, b2, b3, b4, ?_⟩
  · unfold conv applyConv MPCTensor.checkPrivate
    dsimp only
    rw [hxs, hys, if_neg (by simp), if_neg (by simp), ok_bind, if_neg (by rw [hadd]; decide), hsh, ok_bind, g1, ok_bind]
    dsimp only
    rw [hsh', ok_bind, if_neg (by omega), ok_bind, pure_eq_ok, ok_bind]
    dsimp only
    rw [hsh2, b1, ok_bind]
    rfl
  · rintro n' m' i' j' ⟨N, M, I, J, hin, hn', hm', hi', hj'⟩
    rw [hsh2] at hin
    cases hin
    have hz : z0 [n', m', i', j'] + z1 [n', m', i', j'] = BitVec.ofInt 64 (exact op a x.shape y.shape xv wv n' m' i' j') := by
      rw [exact_ring, ← at_textbook op a _ _ _ hsh]
      have := congrFun g8 [n', m', i', j']
      simpa using this
    refine ⟨hz, ?_⟩
    intro h1 h2 h3 h4
    have hsum : out.result.value [n', m', i', j']
        = floordiv (z0 [n', m', i', j']) (BitVec.ofInt 64 ((s.config.encoderBase ^ s.config.encoderPrecision : Nat) : Int))
          + floordiv (z1 [n', m', i', j']) (BitVec.ofInt 64 ((s.config.encoderBase ^ s.config.encoderPrecision : Nat) : Int)) := by
      unfold MPCTensor.value
      rw [g6]
      simp only [convTrunc, List.map_cons, List.map_nil, List.sum_cons, List.sum_nil, add_zero, Pi.add_apply, BitVec.ofInt_natCast]
    have hp : (z0 [n', m', i', j'] + z1 [n', m', i', j']).toInt = exact op a x.shape y.shape xv wv n' m' i' j' := by
      rw [abs_lt] at h1
      rw [hz, toInt_ofInt64 (by omega) (by omega)]
    have key := (truncatedProduct _ _ _ (s.config.encoderBase ^ s.config.encoderPrecision : Nat) (by exact_mod_cast hS0)
      (by exact_mod_cast hsc) hp).1 h3 h4
    rw [← hsum] at key
    have hy := b5 n' m' i' j' hm'
    have hS1 : (1 : Int) ≤ (s.config.encoderBase ^ s.config.encoderPrecision : Nat) := by exact_mod_cast hS0
    generalize ((s.config.encoderBase ^ s.config.encoderPrecision : Nat) : Int) = S at *
    generalize exact op a x.shape y.shape xv wv n' m' i' j' = p at *
    have hQ : |(out.result.value [n', m', i', j']).toInt| < 2 ^ 62 + 2 := by
      rw [abs_lt] at key h1 ⊢
      constructor
      · by_contra hc
        nlinarith
      · by_contra hc
        nlinarith
    have hyv : (zv [n', m', i', j']).toInt = (out.result.value [n', m', i', j']).toInt + (bv m').toInt := by
      rw [hy, BitVec.toInt_add]
      rw [abs_lt] at hQ h2
      exact bmod64_eq (by omega) (by omega)
    rw [hyv]
    have e : ((out.result.value [n', m', i', j']).toInt + (bv m').toInt) * S - (p + (bv m').toInt * S)
        = (out.result.value [n', m', i', j']).toInt * S - p := by
      ring
    rw [e]
    exact key

/-- C63 (partial): with three and more parties the parties hold, before the division by the scale, shares of exactly the convolution in
the ring, and the result is what the division (see C27) makes of them, plus the bias. -/
theorem C63_many_parties_partial (env : Env) (s : Session) (hs : s.Live env) (hn : 2 < s.nrParties)
    (hadd : s.protocol.shareClass = .additive) (rnd : ConvRand) (divide : MPCTensor (List Nat → I64) → Py (MPCTensor (List Nat → I64)))
    (op : ConvOp) (a : Args) (x y : Secret) (hx : x.tensor.WF env) (hy : y.tensor.WF env) (hxs : x.tensor.session = s)
    (hys : y.tensor.session = s) (sh sh' : List Nat) (hsh : op.shape a x.shape y.shape = .ok sh)
    (hsh' : op.shape .default x.shape y.shape = .ok sh') (bias : Bias) (bv : Nat → I64)
    (hbias : ∀ c ∈ sh[1]?, BiasIs env s c bias bv)
    (w : ConvWorld) (q : ConvKey → List Nat) (kwOf : Nat → Args)
    (ts : (k : ConvKey) → Nat → Nat → Triple (List Nat → I64) (List Nat → I64) (List Nat → I64)) (hg : w.Good convOp s q kwOf ts)
    (hkw : ∀ j ∈ q (op, x.shape, y.shape), kwOf j = a) (xv wv : List Nat → I64) (hxv : x.tensor.reconstruct = .ok xv)
    (hwv : y.tensor.reconstruct = .ok wv) :
    ∃ (z : MPCTensor (List Nat → I64)) (zv : List Nat → I64) (w' : ConvWorld) (q' : ConvKey → List Nat) (kwOf' : Nat → Args)
      (ts' : (k : ConvKey) → Nat → Nat → Triple (List Nat → I64) (List Nat → I64) (List Nat → I64)),
      w'.Good convOp s q' kwOf' ts' ∧ (∀ k, ∀ j ∈ q' k, j ∈ q k ∧ kwOf' j = kwOf j) ∧ z.WF env ∧ z.session = s ∧
      z.reconstruct = .ok zv ∧
      (∀ n m i j, Inside sh n m i j → zv [n, m, i, j] = BitVec.ofInt 64 (exact op a x.shape y.shape xv wv n m i j)) ∧
      (∀ e, divide z = .error e → conv env rnd divide op a x (.inl y) bias w = .error e) ∧
      ∀ d dv, divide z = .ok d → d.WF env → d.session = s → d.reconstruct = .ok dv →
        ∃ out v, conv env rnd divide op a x (.inl y) bias w = .ok (⟨out, sh⟩, w') ∧ out.WF env ∧ out.session = s ∧ out.reconstruct = .ok v ∧
          ∀ n m i j, Inside sh n m i j → v [n, m, i, j] = dv [n, m, i, j] + bv m := by
  obtain ⟨n, c, hh, vv, o, ci, kh, kw, i, j, -, -, hsh2, -⟩ := shape_ok hsh
  obtain ⟨out, w', q', kwOf', ts', zs, g1, g2, g3, g4, g5, g6, g7, g8⟩ := conv_step env s hs rnd op a x y hx hy hxs hys w q kwOf ts hg hkw
    xv wv hxv hwv
  have hbias' : BiasIs env s (channels op a.groups o ci) bias bv := hbias _ (by rw [hsh2]; rfl)
  rw [if_neg (by omega)] at g6
  have hrun : ∀ r : Py (MPCTensor (List Nat → I64)), divide out.result = r → conv env rnd divide op a x (.inl y) bias w
      = r >>= fun z => addBias env bias ⟨z, sh⟩ >>= fun r => .ok (r, w') := by
    intro r hr
    unfold conv applyConv MPCTensor.checkPrivate
    dsimp only
    rw [hxs, hys, if_neg (by simp), if_neg (by simp), ok_bind, if_neg (by rw [hadd]; decide), hsh, ok_bind, g1, ok_bind]
    dsimp only
    rw [hsh', ok_bind, if_pos hn, hr]
    cases r <;> rfl
  refine ⟨out.result, _, w', q', kwOf', ts', g2, g3, g4, g5, WF.reconstruct g4, ?_, ?_, ?_⟩
  · intro n' m' i' j' _
    show (out.result.shares.map (·.tensor)).sum _ = _
    rw [exact_ring, ← at_textbook op a _ _ _ hsh, g6, g8]
  · intro e he
    rw [hrun _ he]
    rfl
  · intro d dv hd h1 h2 h3
    rw [WF.reconstruct h1] at h3
    cases h3
    obtain ⟨z, zv, b1, b2, b3, b4, b5⟩ := addBias_ok env s bias bv n _ i j hbias' d h1 h2
    refine ⟨z, zv, ?_, b2, b3, b4, ?_⟩
    · rw [hrun _ hd, ok_bind, hsh2, b1]
      rfl
    · rintro n' m' i' j' ⟨N, M, I, J, hin, hn', hm', hi', hj'⟩
      rw [hsh2] at hin
      cases hin
      exact b5 n' m' i' j' hm'

/-! ## What is refused -/

/-- C63: a transposed convolution that torch accepts is never refused: the second computation of the shape accepts it too. -/
theorem C63_transposed_accepted (a : Args) (xs ws sh : List Nat) (h : ConvOp.convTranspose2d.shape a xs ws = .ok sh) :
    ∃ sh', ConvOp.convTranspose2d.shape .default xs ws = .ok sh' := by
  exact transposed_accepted a xs ws sh h

/-- C63 fails: which convolutions that torch accepts the second computation of the shape refuses.  It accepts exactly those without
groups of several channels and with kernels no larger than the image. -/
theorem C63_default_shape (a : Args) (n c h v o ci kh kw : Nat) (sh : List Nat)
    (hsh : ConvOp.conv2d.shape a [n, c, h, v] [o, ci, kh, kw] = .ok sh) :
    (∃ sh', ConvOp.conv2d.shape .default [n, c, h, v] [o, ci, kh, kw] = .ok sh') ↔ c = ci ∧ kh ≤ h ∧ kw ≤ v := by
  obtain ⟨n', c', hh, v', o', ci', kh', kw', i, j, e1, e2, -, -, -, h1, h2, h3, h4, -⟩ := shape_ok hsh
  cases e1
  cases e2
  have pos : ∀ {n k s p d m : Nat}, outDim n k s p d = .ok m → k ≠ 0 := by
    intro n k s p d m h
    unfold outDim at h
    split at h
    · cases h
    next hc => omega
  have p1 := pos h1
  have p2 := pos h2
  have e : ConvOp.conv2d.shape .default [n, c, h, v] [o, ci, kh, kw] = if o = 0 ∨ c ≠ ci then .error .runtimeError else (do
      let i ← outDim h kh 1 0 1
      let j ← outDim v kw 1 0 1
      return [n, o, i, j]) := by
    by_cases hc : o = 0 ∨ c ≠ ci
    · rw [if_pos hc]
      exact if_pos (show 1 = 0 ∨ o < 1 ∨ o % 1 ≠ 0 ∨ c ≠ ci * 1 by omega)
    · rw [if_neg hc]
      exact if_neg (show ¬ (1 = 0 ∨ o < 1 ∨ o % 1 ≠ 0 ∨ c ≠ ci * 1) by omega)
  rw [e]
  constructor
  · rintro ⟨sh', hd⟩
    by_cases hc : o = 0 ∨ c ≠ ci
    · rw [if_pos hc] at hd
      cases hd
    · rw [if_neg hc] at hd
      unfold outDim at hd
      split at hd
      · rw [error_bind] at hd; cases hd
      · rw [ok_bind] at hd
        split at hd
        · rw [error_bind] at hd; cases hd
        · omega
  · rintro ⟨rfl, h5, h6⟩
    unfold outDim
    rw [if_neg (by omega), if_neg (by omega), if_neg (by omega)]
    exact ⟨_, rfl⟩

/-- C63 fails: if the second computation of the shape refuses the shapes, the convolution raises `RuntimeError`, although torch accepts
it for the numbers themselves. -/
theorem C63_refused (env : Env) (s : Session) (hs : s.Live env) (hadd : s.protocol.shareClass = .additive) (rnd : ConvRand)
    (divide : MPCTensor (List Nat → I64) → Py (MPCTensor (List Nat → I64))) (op : ConvOp) (a : Args) (x y : Secret)
    (hx : x.tensor.WF env) (hy : y.tensor.WF env) (hxs : x.tensor.session = s) (hys : y.tensor.session = s) (sh : List Nat)
    (hsh : op.shape a x.shape y.shape = .ok sh) (hsh' : op.shape .default x.shape y.shape = .error .runtimeError) (bias : Bias)
    (w : ConvWorld) (q : ConvKey → List Nat) (kwOf : Nat → Args)
    (ts : (k : ConvKey) → Nat → Nat → Triple (List Nat → I64) (List Nat → I64) (List Nat → I64)) (hg : w.Good convOp s q kwOf ts) :
    conv env rnd divide op a x (.inl y) bias w = .error .runtimeError := by
  obtain ⟨out, w', q', kwOf', ts', j, zs, a', b', g1, -⟩ :=
    mul_step env s hs convHom (fun _ => convTrunc) rnd w q kwOf ts hg (op, x.shape, y.shape) a x.tensor y.tensor hx hy hxs hys
  have g1' : mulMaster env convOp (fun _ => convTrunc) rnd (op, x.shape, y.shape) a w x.tensor y.tensor = .ok (out, w') := g1
  unfold conv applyConv MPCTensor.checkPrivate
  dsimp only
  rw [hxs, hys, if_neg (by simp), if_neg (by simp), ok_bind, if_neg (by rw [hadd]; decide), hsh, ok_bind, g1', ok_bind]
  dsimp only
  rw [hsh', error_bind, error_bind]

/-- C63 fails for kernels as large as the padded image, and for groups: torch accepts both. -/
example : ConvOp.conv2d.shape ⟨(1, 1), (1, 1), (1, 1), 1⟩ [1, 1, 2, 2] [1, 1, 3, 3] = .ok [1, 1, 2, 2] ∧
    ConvOp.conv2d.shape .default [1, 1, 2, 2] [1, 1, 3, 3] = .error .runtimeError ∧
    ConvOp.conv2d.shape ⟨(1, 1), (0, 0), (1, 1), 2⟩ [1, 2, 4, 4] [2, 1, 3, 3] = .ok [1, 2, 2, 2] ∧
    ConvOp.conv2d.shape .default [1, 2, 4, 4] [2, 1, 3, 3] = .error .runtimeError := by decide

/-- C63 fails: a public kernel raises `AttributeError`. -/
theorem C63_public_kernel (env : Env) (rnd : ConvRand) (divide : MPCTensor (List Nat → I64) → Py (MPCTensor (List Nat → I64)))
    (op : ConvOp) (a : Args) (x : Secret) (t : Tensor I64) (bias : Bias) (w : ConvWorld) :
    conv env rnd divide op a x (.inr t) bias w = .error .attributeError := rfl

/-- C63 fails: a public bias with several elements raises `RuntimeError` in every run, because `if bias:` asks for its truth value. -/
theorem C63_public_bias (env : Env) (rnd : ConvRand) (divide : MPCTensor (List Nat → I64) → Py (MPCTensor (List Nat → I64)))
    (op : ConvOp) (a : Args) (x : Secret) (y : Secret ⊕ Tensor I64) (b : Tensor FixedPointEncoder.Val) (hb : b.shape.prod ≠ 1)
    (w w' : ConvWorld) (r : Secret) (h : conv env rnd divide op a x y .none w = .ok (r, w')) :
    conv env rnd divide op a x y (.pub b) w = .error .runtimeError := by
  unfold conv at h ⊢
  cases e : applyConv env rnd divide op a x y w with
  | error e' => rw [e, error_bind] at h; cases h
  | ok z =>
    rw [ok_bind]
    simp only [addBias, Bias.truth, if_neg hb, error_bind]

/-- C63 fails: convolutions of replicated sharings raise `NotImplementedError`. -/
theorem C63_replicated (env : Env) (rnd : ConvRand) (divide : MPCTensor (List Nat → I64) → Py (MPCTensor (List Nat → I64)))
    (op : ConvOp) (a : Args) (x y : Secret) (hs : y.tensor.session = x.tensor.session)
    (hr : x.tensor.session.protocol.shareClass = .replicated) (bias : Bias) (w : ConvWorld) :
    conv env rnd divide op a x (.inl y) bias w = .error .notImplemented := by
  unfold conv applyConv MPCTensor.checkPrivate
  dsimp only
  rw [hs, if_neg (by simp), if_neg (by simp), ok_bind, if_pos hr]
  rfl

/-! ## An example -/

/-- the randomness of a triple -/
def exRand : ConvRand := fun _ _ =>
  ⟨fun l => BitVec.ofNat 64 (l.sum * 77 + 5), fun l => BitVec.ofNat 64 (l.sum * 3 + 1), fun _ _ => 4, fun _ _ => 9, fun _ _ => 123456⟩

/-- an image of 3 × 3 pixels 1, 2, ... 9 with two parties, scale 65536 -/
def exImage : Secret :=
  ⟨exPairSecret (fun l => BitVec.ofNat 64 (65536 * (1 + 3 * l.getD 2 0 + l.getD 3 0) + 31)) fun _ => BitVec.ofInt 64 (-31), [1, 1, 3, 3]⟩

/-- two kernels of 2 × 2: all 0.5, and all 1.5 -/
def exKernel : Secret :=
  ⟨exPairSecret (fun l => BitVec.ofNat 64 (32768 + 65536 * l.getD 0 0 + 7)) fun _ => BitVec.ofInt 64 (-7), [2, 1, 2, 2]⟩

/-- the biases 10 and 20 -/
def exBias : Secret :=
  ⟨exPairSecret (fun l => BitVec.ofNat 64 (655360 * (1 + l.getD 0 0) - 3)) fun _ => 3, [2]⟩

/-- a triple for these shapes and arguments is made during the first product: no triple is in stock -/
def exWorld : ConvWorld := World.empty

/-- C63: all hypotheses hold, with stride 2, padding 1 and dilation 1. -/
example : exPair.Live exPairEnv ∧ exImage.tensor.WF exPairEnv ∧ exKernel.tensor.WF exPairEnv ∧
    (∃ bv, BiasIs exPairEnv exPair 2 (.secret exBias) bv) ∧ (∃ q kwOf ts, exWorld.Good convOp exPair q kwOf ts ∧ ∀ k, q k = []) ∧
    ConvOp.conv2d.shape ⟨(2, 2), (1, 1), (1, 1), 1⟩ exImage.shape exKernel.shape = .ok [1, 2, 2, 2] ∧
    ConvOp.conv2d.shape .default exImage.shape exKernel.shape = .ok [1, 2, 2, 2] := by
  refine ⟨exPairLive, exPairSecret_wf _ _, exPairSecret_wf _ _, ⟨_, .secret exBias _ (exPairSecret_wf _ _) rfl rfl rfl⟩,
    ⟨fun _ => [], fun _ => .default, fun _ _ _ => ⟨0, ⟨fun _ => 0, none, {}, 0⟩, ⟨fun _ => 0, none, {}, 0⟩, ⟨fun _ => 0, none, {}, 0⟩⟩, good_empty _ _ _ _, fun _ => rfl⟩, by decide, by decide⟩

/-- The run: 0.5 * 1 + 10, 0.5 * (2 + 3) + 10, 0.5 * (5 + 6 + 8 + 9) + 10 and 1.5 * (5 + 6 + 8 + 9) + 20 in units of 1/65536, off by
at most one unit. -/
example :
    (match conv exPairEnv exRand (fun z => .ok z) .conv2d ⟨(2, 2), (1, 1), (1, 1), 1⟩ exImage (.inl exKernel) (.secret exBias) exWorld with
      | .ok (r, _) => (r.tensor.reconstruct.map fun v =>
          [(v [0, 0, 0, 0]).toInt - 688128, (v [0, 0, 0, 1]).toInt - 819200, (v [0, 0, 1, 1]).toInt - 1572864,
            (v [0, 1, 1, 1]).toInt - 4063232].map fun e => decide (-1 ≤ e ∧ e ≤ 1), r.shape)
      | .error e => (.error e, [])) = (.ok [true, true, true, true], [1, 2, 2, 2]) := by
  decide +kernel

/-- The transposed convolution of the same secrets: (0.5 + 1.5) * 1 and (0.5 + 1.5) * 8. -/
example :
    (match conv exPairEnv exRand (fun z => .ok z) .convTranspose2d ⟨(2, 2), (1, 1), (1, 1), 1⟩ ⟨exImage.tensor, [1, 2, 3, 3]⟩ (.inl exKernel)
        .none exWorld with
      | .ok (r, _) => (r.tensor.reconstruct.map fun v =>
          [(v [0, 0, 0, 0]).toInt - 131072, (v [0, 0, 3, 2]).toInt - 1048576].map fun e => decide (-1 ≤ e ∧ e ≤ 1), r.shape)
      | .error e => (.error e, [])) = (.ok [true, true], [1, 1, 4, 4]) := by
  decide +kernel

end SyMPC.Conv
