import Verif.Props.Conv
import Verif.Props.WrapsT

/-!
# C63: private convolutions with three and more parties
-/

namespace SyMPC.Conv

/-- C63 (partial): a private convolution of three or more parties with a binary encoder, without a bias, with a secret bias or with one
public number as bias, in any state of the stores in which the triples for these shapes were made with the same arguments.  The shape is
torch's.  The parties hold shares `z` of exactly the convolution; where the textbook's convolution and the bias fit and no rare number
was drawn for the division (see `Drawn`), the result is the convolution plus the bias, off by at most as many quanta as there are parties.
Missing: as for `C63_two_parties_partial`, and other bases of the encoder (`C27_float32_error`). -/
theorem C63_many_divided_partial (env : Env) (s : Session) (hs : s.Live env) (h3 : 3 ≤ s.nrParties) (hn : s.nrParties ≤ 2 ^ 24)
    (hring : s.ringSize = 2 ^ 64) (hb : s.config.encoderBase = 2) (hp0 : s.config.encoderPrecision ≠ 0) (hp : s.config.encoderPrecision ≤ 24)
    (hadd : s.protocol.shareClass = .additive) (rnd : ConvRand) (wraps : WrapRandT (List Nat))
    (op : ConvOp) (a : Args) (x y : Secret) (hx : x.tensor.WF env) (hy : y.tensor.WF env) (hxs : x.tensor.session = s)
    (hys : y.tensor.session = s) (sh sh' : List Nat) (hsh : op.shape a x.shape y.shape = .ok sh)
    (hsh' : op.shape .default x.shape y.shape = .ok sh') (bias : Bias) (bv : Nat → I64)
    (hbias : ∀ c ∈ sh[1]?, BiasIs env s c bias bv)
    (w : ConvWorld) (q : ConvKey → List Nat) (kwOf : Nat → Args)
    (ts : (k : ConvKey) → Nat → Nat → Triple (List Nat → I64) (List Nat → I64) (List Nat → I64)) (hg : w.Good convOp s q kwOf ts)
    (hkw : ∀ j ∈ q (op, x.shape, y.shape), kwOf j = a) (xv wv : List Nat → I64) (hxv : x.tensor.reconstruct = .ok xv)
    (hwv : y.tensor.reconstruct = .ok wv) :
    ∃ (z out : MPCTensor (List Nat → I64)) (w' : ConvWorld) (q' : ConvKey → List Nat) (kwOf' : Nat → Args)
      (ts' : (k : ConvKey) → Nat → Nat → Triple (List Nat → I64) (List Nat → I64) (List Nat → I64)) (v : List Nat → I64),
      conv env rnd (fun z => publicDivideT f32 env wraps z (s.config.encoderBase ^ s.config.encoderPrecision : Nat)) op a x (.inl y) bias w
        = .ok (⟨out, sh⟩, w') ∧
      w'.Good convOp s q' kwOf' ts' ∧ (∀ k, ∀ j ∈ q' k, j ∈ q k ∧ kwOf' j = kwOf j) ∧
      out.WF env ∧ out.session = s ∧ out.reconstruct = .ok v ∧
      ∀ n m i j, Inside sh n m i j →
        (z.shares.map (·.tensor)).sum [n, m, i, j] = BitVec.ofInt 64 (exact op a x.shape y.shape xv wv n m i j) ∧
        (|exact op a x.shape y.shape xv wv n m i j| < 2 ^ 62 → |(bv m).toInt| < 2 ^ 61 →
          Drawn s.nrParties wraps (z.shares.map (·.tensor)) [n, m, i, j] →
          |(v [n, m, i, j]).toInt * 2 ^ s.config.encoderPrecision
            - (exact op a x.shape y.shape xv wv n m i j + (bv m).toInt * 2 ^ s.config.encoderPrecision)|
            ≤ s.nrParties * (2 ^ s.config.encoderPrecision - 1)) := by
  obtain ⟨z, zv, w', q', kwOf', ts', g1, g2, g3, g4, g5, g6, -, g7⟩ := C63_many_parties_partial env s hs (by omega) hadd rnd
    (fun z => publicDivideT f32 env wraps z (s.config.encoderBase ^ s.config.encoderPrecision : Nat)) op a x y hx hy hxs hys sh sh' hsh hsh'
    bias bv hbias w q kwOf ts hg hkw xv wv hxv hwv
  obtain ⟨res, dv, r1, r2, r3, r4, r5⟩ := C27_tensors_pow2_partial env s hs hring h3 hn hb hp0 hp wraps z g3 g4 zv g5 s.config.encoderPrecision
    (by omega)
  have hd : publicDivideT f32 env wraps z (s.config.encoderBase ^ s.config.encoderPrecision : Nat) = .ok res := by
    rw [hb]
    push_cast
    exact r1
  obtain ⟨out, v, k1, k2, k3, k4, k5⟩ := g7 res dv hd r2 r3 r4
  refine ⟨z, out, w', q', kwOf', ts', v, k1, g1, g2, k2, k3, k4, fun n m i j hin => ?_⟩
  have hz := g6 n m i j hin
  rw [WF.reconstruct g3] at g5
  have hzv : (z.shares.map (·.tensor)).sum = zv := by simpa using g5
  refine ⟨by rw [hzv]; exact hz, fun e1 e2 hdr => ?_⟩
  have key := r5 _ hdr
  have hv := k5 n m i j hin
  rw [hz, toInt_ofInt64 (by rw [abs_lt] at e1; omega) (by rw [abs_lt] at e1; omega)] at key
  generalize exact op a x.shape y.shape xv wv n m i j = p at *
  have hS : (2 : Int) ≤ 2 ^ s.config.encoderPrecision := by
    calc (2 : Int) = 2 ^ 1 := by norm_num
      _ ≤ _ := pow_le_pow_right₀ (by norm_num) (by omega)
  have hN : (s.nrParties : Int) ≤ 2 ^ 24 := by exact_mod_cast hn
  generalize (2 : Int) ^ s.config.encoderPrecision = S at *
  have hQ : |(dv [n, m, i, j]).toInt| < 2 ^ 61 + 2 ^ 25 := by
    rw [abs_lt] at e1 ⊢
    rw [abs_le] at key
    constructor
    · by_contra hc
      nlinarith
    · by_contra hc
      nlinarith
  have hyv : (v [n, m, i, j]).toInt = (dv [n, m, i, j]).toInt + (bv m).toInt := by
    rw [hv, BitVec.toInt_add]
    rw [abs_lt] at hQ e2
    exact bmod64_eq (by omega) (by omega)
  rw [hyv]
  have e : ((dv [n, m, i, j]).toInt + (bv m).toInt) * S - (p + (bv m).toInt * S) = (dv [n, m, i, j]).toInt * S - p := by ring
  rw [e]
  exact key

/-! ## An example -/

/-- an image of 3 × 3 pixels 1, 2, ... 9 with three parties, scale 65536 -/
def exImage3 : Secret :=
  ⟨exSecret (fun l => BitVec.ofNat 64 (65536 * (1 + 3 * l.getD 2 0 + l.getD 3 0) + 31)) (fun _ => BitVec.ofInt 64 (-41)) (fun _ => 10),
    [1, 1, 3, 3]⟩

/-- two kernels of 2 × 2: all 0.5, and all 1.5 -/
def exKernel3 : Secret :=
  ⟨exSecret (fun l => BitVec.ofNat 64 (32768 + 65536 * l.getD 0 0 + 7)) (fun _ => BitVec.ofInt 64 (-9)) (fun _ => 2), [2, 1, 2, 2]⟩

/-- the biases 10 and 20 -/
def exBias3 : Secret :=
  ⟨exSecret (fun l => BitVec.ofNat 64 (655360 * (1 + l.getD 0 0) - 3)) (fun _ => 3) (fun _ => 0), [2]⟩

/-- all hypotheses hold, with stride 2, padding 1 and dilation 1 -/
example : exSession.Live exEnv ∧ exImage3.tensor.WF exEnv ∧ exKernel3.tensor.WF exEnv ∧
    (∃ bv, BiasIs exEnv exSession 2 (.secret exBias3) bv) ∧ (∃ q kwOf ts, exWorld.Good convOp exSession q kwOf ts ∧ ∀ k, q k = []) ∧
    ConvOp.conv2d.shape ⟨(2, 2), (1, 1), (1, 1), 1⟩ exImage3.shape exKernel3.shape = .ok [1, 2, 2, 2] ∧
    ConvOp.conv2d.shape .default exImage3.shape exKernel3.shape = .ok [1, 2, 2, 2] ∧ exSession.protocol.shareClass = .additive := by
  refine ⟨exLive, exSecret_wf _ _ _, exSecret_wf _ _ _, ⟨_, .secret exBias3 _ (exSecret_wf _ _ _) rfl rfl rfl⟩,
    ⟨fun _ => [], fun _ => .default, fun _ _ _ => ⟨0, ⟨fun _ => 0, none, {}, 0⟩, ⟨fun _ => 0, none, {}, 0⟩, ⟨fun _ => 0, none, {}, 0⟩⟩, good_empty _ _ _ _, fun _ => rfl⟩, by decide, by decide, rfl⟩

end SyMPC.Conv
