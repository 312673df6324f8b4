import Verif.Props.Layer
import Verif.Props.NnMachine
import Verif.Spec.Network
import Mathlib.Algebra.BigOperators.Field
import Mathlib.Algebra.Order.Group.MinMax

/-!
# C86: private inference
-/

namespace SyMPC.Network

open FixedPointEncoder (Val truncRat)
open Machine (ofShares_inv start two_shares)

variable {Key : Type}

/-! ## Linear layers -/

/-- what the stores for matrix products hold -/
def MatInv (M : Machine Key) (w : MatWorld) : Prop :=
  ∃ q ts, w.Good (fun k (_ : Unit) a b => matProd k a b) M.session q (fun _ => ()) ts

/-- what the stores hold -/
def Inv (M : Machine Key) (w : NetState Key) : Prop := MatInv M w.1 ∧ M.Inv w.2

/-- nothing is stored -/
def empty : NetState Key := (World.empty, start)

theorem inv_empty (M : Machine Key) : Inv M empty :=
  ⟨⟨_, fun _ _ _ => ⟨0, ⟨0, none, {}, 0⟩, ⟨0, none, {}, 0⟩, ⟨0, none, {}, 0⟩⟩, good_empty ..⟩, M.inv_start⟩

/-- a secret of the session -/
def Ok (M : Machine Key) {T : Type} (x : MPCTensor T) : Prop := x.WF M.env ∧ x.session = M.session

def flatHom (b n : Nat) : (Fin b × Fin n → I64) →+ (Fin (b * n) → I64) := AddMonoidHom.mk' flat fun _ _ => rfl

def unflatHom (b n : Nat) : (Fin (b * n) → I64) →+ (Fin b × Fin n → I64) := AddMonoidHom.mk' unflat fun _ _ => rfl

/-- one layer, in quanta -/
theorem linear_quanta (M : Machine Key) (hM : M.Fair) (rnd : (k : MatKey) → Nat → TripleRand (MatL k) (MatR k) (MatO k)) {b i o : Nat}
    (layer : LinearLayer i o) (x : MPCTensor (Fin b × Fin i → I64)) (hx : Ok M x) (hw : Ok M layer.weight)
    (hb : ∀ v ∈ layer.bias, Ok M v) (w : NetState Key) (hi : Inv M w) :
    linear M rnd layer x w = .error (.inr ()) ∨
    ∃ (y : MPCTensor (Fin b × Fin o → I64)) (w' : NetState Key), linear M rnd layer x w = .ok (y, w') ∧ Inv M w' ∧ Ok M y ∧
      ∃ q : Fin b → Fin o → I64, (∀ r c, |(q r c).toInt * M.scale
          - (BitVec.ofInt 64 (∑ l, (x.value (r, l)).toInt * (layer.weight.value (c, l)).toInt)).toInt| ≤ 2 * (M.scale - 1)) ∧
        ∀ r c, y.value (r, c) = q r c + match layer.bias with | none => 0 | some v => v.value c := by
  obtain ⟨⟨q, ts, hg⟩, hst⟩ := hi
  have hlive : M.session.Live M.env := hM.pair.toLive
  obtain ⟨wt, t1, t2, t3⟩ := C16_additive_map M.env (matTHom o i) layer.weight hw.1 _ (WF.reconstruct hw.1)
  have t4 : wt.session = M.session := by rw [ofShares_inv t1]; exact hw.2
  have t1' : MPCTensor.hookMethod matT layer.weight = .ok wt := t1
  have hwt : wt.value = matT layer.weight.value := by rw [WF.reconstruct t2] at t3; exact Except.ok.inj t3
  obtain ⟨raw, w', q', kwOf', ts', j, zs, a', b', e1, e2, -, -, -, -, -, -, -, -, -, -, e3, e4, e5, e6, e7⟩ :=
    mul_step M.env M.session hlive (fun k (_ : Unit) => matHom k) (fun _ _ z => z) rnd w.1 q (fun _ => ()) ts hg (b, i, o) () x wt
      hx.1 t2 hx.2 t4
  have hkw : kwOf' = fun _ => () := rfl
  rw [hkw] at e2
  have e1' : mulMaster (Kw := Unit) M.env (fun k _ a b => matProd k a b) (fun _ _ z => z) rnd (b, i, o) () w.1 x wt = .ok (raw, w') := e1
  obtain ⟨out, e8, e9⟩ := mulMaster_trunc M.env (fun k (_ : Unit) a b => matProd k a b) matTrunc rnd (b, i, o) () w.1 w' x wt raw
    M.session.config (by
      intro u hu p hp
      rw [hx.2] at hu
      obtain ⟨r, hr⟩ := List.getElem?_of_mem hu
      obtain ⟨p', h1, _, h2⟩ := hlive.ranked r u hr
      obtain ⟨p'', h3, h4, _⟩ := hlive.known u hu
      rw [hp] at h1 h3
      cases h1
      cases h3
      exact ⟨by rw [h2, hM.pair.pair], h4⟩) e1'
  have hraw : raw.result.WF M.env := ⟨by rw [e3]; exact hlive.toReady, by rw [e4, e3]⟩
  obtain ⟨sa, sb, hs⟩ := pair_shares (by rw [e3]; exact hM.pair) hraw
  have e5' : [sa.tensor, sb.tensor] = zs := by
    rw [hs] at e5
    simpa using e5
  have hsum : sa.tensor + sb.tensor = matProd (b, i, o) x.value wt.value := by
    have h2 : zs.sum = matProd (b, i, o) x.value wt.value := by
      have h3 := e7
      simp only [sub_self, add_zero] at h3
      exact h3
    rw [← h2, ← e5']
    simp
  have hraw' : rawProduct M.env rnd layer x w.1 = .ok raw.result := by
    unfold rawProduct
    rw [t1', ok_bind, e1', ok_bind]
    rfl
  have hout : out.result.WF M.env := by
    rw [e9]
    exact ⟨hraw.ready, by simpa [ShareTensor.onTensor, Function.comp_def] using hraw.tags⟩
  have hos : out.result.session = M.session := by rw [e9]; exact e3
  -- the result of the layer
  obtain ⟨y, hy1, hy2, hy3⟩ : ∃ y : MPCTensor (Fin b × Fin o → I64), layer.forward M.env rnd x w.1 = .ok (y, w') ∧ Ok M y ∧
      ∀ r c, y.value (r, c) = out.result.value (r, c) + match layer.bias with | none => 0 | some v => v.value c := by
    unfold LinearLayer.forward
    rw [t1', ok_bind, e8, ok_bind]
    cases hb' : layer.bias with
    | none => exact ⟨out.result, rfl, ⟨hout, hos⟩, fun r c => (add_zero _).symm⟩
    | some v =>
      obtain ⟨v1, v2⟩ := hb v (by rw [hb']; rfl)
      obtain ⟨vr, u1, u2, u3⟩ := C16_additive_map M.env (matRowsHom b o) v v1 _ (WF.reconstruct v1)
      have u4 : vr.session = M.session := by rw [ofShares_inv u1]; exact v2
      obtain ⟨z, p1, p2, p3, p4⟩ := priv_ok (P := Empty) M.env .add out.result vr hout u2 (by rw [u4, hos]) _ _ (WF.reconstruct hout) u3
      have u1' : MPCTensor.hookMethod (matRows (m := b)) v = .ok vr := u1
      refine ⟨z, ?_, ⟨p3, by rw [p2, hos]⟩, ?_⟩
      · dsimp only
        rw [u1', ok_bind, p1]
        rfl
      · intro r c
        have : z.value = out.result.value + matRows v.value := by
          rw [WF.reconstruct p3] at p4
          exact Except.ok.inj p4
        rw [this]
        rfl
  by_cases hwr : wrapsAt (raw.result.shares.map (ShareTensor.hookMethod flat))
  · left
    simp only [linear, hy1, hraw', if_pos hwr]
  · right
    refine ⟨y, (w', w.2), by simp only [linear, hy1, hraw', if_neg hwr], ⟨⟨_, _, e2⟩, hst⟩, hy2, fun r c => out.result.value (r, c), ?_, hy3⟩
    intro r c
    rw [hs] at hwr
    simp only [List.map_cons, List.map_nil, wrapsAt, decide_eq_true_eq, not_exists, not_or, not_lt, not_le] at hwr
    obtain ⟨g1, g2⟩ := hwr (finProdFinEquiv (r, c))
    simp only [ShareTensor.hookMethod, flat, Equiv.symm_apply_apply] at g1 g2
    have hv : BitVec.ofInt 64 (∑ l, (x.value (r, l)).toInt * (layer.weight.value (c, l)).toInt) = sa.tensor (r, c) + sb.tensor (r, c) := by
      have := congrFun hsum (r, c)
      rw [matProd_ofInt, hwt] at this
      exact this.symm
    have hzv : out.result.value (r, c)
        = floordiv (sa.tensor (r, c)) (BitVec.ofInt 64 (M.scale : Int)) + floordiv (sb.tensor (r, c)) (BitVec.ofInt 64 (M.scale : Int)) := by
      rw [e9, BitVec.ofInt_natCast]
      simp [MPCTensor.value, hs, ShareTensor.onTensor, matTrunc, Machine.scale]
    have hvi : (BitVec.ofInt 64 (∑ l, (x.value (r, l)).toInt * (layer.weight.value (c, l)).toInt)).toInt
        = (sa.tensor (r, c)).toInt + (sb.tensor (r, c)).toInt := by
      have hc := toInt_add_cases (sa.tensor (r, c)) (sb.tensor (r, c))
      rw [if_neg (by omega), if_neg (by omega)] at hc
      rw [hv, hc]
      ring
    dsimp only
    rw [hzv, hvi, two_quotients _ _ (M.scale : Int) (by exact_mod_cast hM.pos)
      (by exact_mod_cast lt_of_le_of_lt hM.small (by norm_num)) (Or.inr ⟨g1, g2⟩)]
    exact tdiv_add_le (sa.tensor (r, c)).toInt (sb.tensor (r, c)).toInt M.scale (by exact_mod_cast hM.pos)

/-- the number at a place of a secret matrix -/
def val (M : Machine Key) {b n : Nat} (x : MPCTensor (Fin b × Fin n → I64)) (r : Fin b) (c : Fin n) : ℚ := (x.value (r, c)).toInt / M.scale

/-- encoded numbers are off by at most a quantum, towards zero -/
theorem encode_near (M : Machine Key) (hM : M.Fair) (q : ℚ) (hq : |q| * M.scale < 2 ^ 62) :
    |((M.session.config.encoder.encode (.float q)).toInt : ℚ) / M.scale - q| ≤ 1 / M.scale ∧
    |((M.session.config.encoder.encode (.float q)).toInt : ℚ) / M.scale| ≤ |q| := by
  have hS : (0 : ℚ) < M.scale := by exact_mod_cast hM.pos
  obtain ⟨h1, h2, -⟩ := truncRat_bounds (q * M.scale)
  have habs : |q * M.scale| = |q| * M.scale := by rw [abs_mul, abs_of_pos hS]
  have hlt : |truncRat (q * M.scale)| < 2 ^ 62 := by
    have : |(truncRat (q * M.scale) : ℚ)| < 2 ^ 62 := by
      refine lt_of_le_of_lt h1 ?_
      rw [habs]
      exact hq
    exact_mod_cast this
  have e : (M.session.config.encoder.encode (.float q)).toInt = truncRat (q * M.scale) := by
    rw [abs_lt] at hlt
    exact toInt_ofInt64 (by change -2 ^ 63 ≤ truncRat (q * M.scale); omega) (by change truncRat (q * M.scale) < 2 ^ 63; omega)
  rw [e]
  constructor
  · have : (truncRat (q * M.scale) : ℚ) / M.scale - q = -(q * M.scale - truncRat (q * M.scale)) / M.scale := by
      field_simp
      ring
    rw [this, abs_div, abs_neg, abs_of_pos hS]
    exact div_le_div_of_nonneg_right h2.le hS.le
  · rw [abs_div, abs_of_pos hS, div_le_iff₀ hS, ← habs]
    exact h1

/-- what the layers made by `share` hold -/
def Holds (M : Machine Key) {i o : Nat} (l : TorchLinear i o) (layer : LinearLayer i o) : Prop :=
  Ok M layer.weight ∧ (∀ v ∈ layer.bias, Ok M v) ∧
  (layer.weight.value = fun p => M.session.config.encoder.encode (.float (l.weight p))) ∧
  layer.bias.map MPCTensor.value = l.bias.map fun b c => M.session.config.encoder.encode (.float (b c))

/-- one layer, as numbers -/
theorem linear_near (M : Machine Key) (hM : M.Fair) (rnd : (k : MatKey) → Nat → TripleRand (MatL k) (MatR k) (MatO k)) {b i o : Nat}
    (l : TorchLinear i o) (layer : LinearLayer i o) (hl : Holds M l layer) (x : MPCTensor (Fin b × Fin i → I64)) (hx : Ok M x)
    (v e : Fin b → Fin i → ℚ) (hv : ∀ r k, |val M x r k - v r k| ≤ e r k) (hf : ∀ r, l.Fits M.scale (v r) (e r))
    (w : NetState Key) (hi : Inv M w) :
    linear M rnd layer x w = .error (.inr ()) ∨
    ∃ (y : MPCTensor (Fin b × Fin o → I64)) (w' : NetState Key), linear M rnd layer x w = .ok (y, w') ∧ Inv M w' ∧ Ok M y ∧
      ∀ r c, |val M y r c - l.eval (v r) c| ≤ l.error M.scale (v r) (e r) c := by
  obtain ⟨l1, l2, l3, l4⟩ := hl
  rcases linear_quanta M hM rnd layer x hx l1 l2 w hi with h | ⟨y, w', h1, h2, h3, q, h4, h5⟩
  · exact .inl h
  refine .inr ⟨y, w', h1, h2, h3, fun r c => ?_⟩
  have hS : (0 : ℚ) < M.scale := by exact_mod_cast hM.pos
  have hS1 : (1 : ℚ) ≤ M.scale := by exact_mod_cast hM.pos
  obtain ⟨f1, f2, f3⟩ := hf r
  -- the product
  set p : Int := ∑ k, (x.value (r, k)).toInt * (layer.weight.value (c, k)).toInt with hp
  have hpq : (p : ℚ) / (M.scale * M.scale) = ∑ k, val M x r k * ((layer.weight.value (c, k)).toInt / M.scale) := by
    rw [hp]
    push_cast
    rw [Finset.sum_div]
    refine Finset.sum_congr rfl fun k _ => ?_
    unfold val
    field_simp
  have hw : ∀ k, |((layer.weight.value (c, k)).toInt : ℚ) / M.scale - l.weight (c, k)| ≤ 1 / M.scale ∧
      |((layer.weight.value (c, k)).toInt : ℚ) / M.scale| ≤ |l.weight (c, k)| := by
    intro k
    rw [l3]
    exact encode_near M hM _ (f1 (c, k))
  have he : ∀ k, 0 ≤ e r k := fun k => (abs_nonneg _).trans (hv r k)
  have hxa : ∀ k, |val M x r k| ≤ |v r k| + e r k := by
    intro k
    have := abs_sub_abs_le_abs_sub (val M x r k) (v r k)
    linarith [hv r k]
  have hpb : |(p : ℚ) / (M.scale * M.scale)| ≤ ∑ k, (|v r k| + e r k) * (|l.weight (c, k)| + 1 / M.scale) := by
    rw [hpq]
    refine (Finset.abs_sum_le_sum_abs _ _).trans (Finset.sum_le_sum fun k _ => ?_)
    rw [abs_mul]
    have : (0 : ℚ) ≤ 1 / M.scale := by positivity
    exact mul_le_mul (hxa k) (by linarith [(hw k).2]) (abs_nonneg _) (add_nonneg (abs_nonneg _) (he k))
  have hp62 : |p| < 2 ^ 62 := by
    have h := f3 c
    have h6 : |(p : ℚ)| = |(p : ℚ) / (M.scale * M.scale)| * (M.scale : ℚ) ^ 2 := by
      rw [abs_div, abs_of_pos (mul_pos hS hS)]
      field_simp
    have : |(p : ℚ)| < 2 ^ 62 := by
      rw [h6]
      refine lt_of_le_of_lt (mul_le_mul_of_nonneg_right hpb (by positivity)) h
    exact_mod_cast this
  have hq := h4 r c
  rw [← hp] at hq
  have hpi : (BitVec.ofInt 64 p).toInt = p := by
    rw [abs_lt] at hp62
    exact toInt_ofInt64 (by omega) (by omega)
  rw [hpi] at hq
  have hqv : |((q r c).toInt : ℚ) / M.scale - p / (M.scale * M.scale)| ≤ 2 / M.scale := by
    have e1 : ((q r c).toInt : ℚ) / M.scale - p / (M.scale * M.scale) = (((q r c).toInt * M.scale - p : Int) : ℚ) / (M.scale * M.scale) := by
      push_cast
      field_simp
    rw [e1, abs_div, abs_of_pos (mul_pos hS hS), div_le_div_iff₀ (mul_pos hS hS) hS]
    have h6 : |(((q r c).toInt * M.scale - p : Int) : ℚ)| ≤ 2 * (M.scale - 1) := by exact_mod_cast hq
    nlinarith
  have hqs : |(q r c).toInt| ≤ 2 ^ 62 + 2 := by
    have hS1' : (1 : Int) ≤ M.scale := by exact_mod_cast hM.pos
    generalize (M.scale : Int) = S at hq hS1'
    rw [abs_le] at hq
    rw [abs_lt] at hp62
    rw [abs_le]
    constructor
    · by_contra hc
      nlinarith
    · by_contra hc
      nlinarith
  -- the bias
  obtain ⟨β, hb1, hb2, hb3⟩ : ∃ β : I64, y.value (r, c) = q r c + β ∧ |β.toInt| < 2 ^ 61 ∧
      |(β.toInt : ℚ) / M.scale - l.biasAt c| ≤ if l.bias.isSome then (1 : ℚ) / M.scale else 0 := by
    have h5' := h5 r c
    unfold TorchLinear.biasAt
    cases hlb : l.bias with
    | none =>
      rw [hlb] at l4
      cases hb : layer.bias with
      | none =>
        rw [hb] at h5'
        exact ⟨0, h5', by decide, by simp⟩
      | some u =>
        rw [hb] at l4
        cases l4
    | some t =>
      rw [hlb] at l4
      cases hb : layer.bias with
      | none =>
        rw [hb] at l4
        cases l4
      | some u =>
        rw [hb] at l4 h5'
        simp only [Option.map_some, Option.some.injEq] at l4
        have ht := f2 t (by rw [hlb]; rfl) c
        obtain ⟨n1, n2⟩ := encode_near M hM (t c) (ht.trans (by norm_num))
        refine ⟨u.value c, h5', ?_, ?_⟩
        · rw [l4]
          rw [abs_div, abs_of_pos hS, div_le_iff₀ hS] at n2
          have := lt_of_le_of_lt n2 ht
          exact_mod_cast this
        · rw [l4]
          exact n1
  have hyv : (y.value (r, c)).toInt = (q r c).toInt + β.toInt := by
    rw [hb1, BitVec.toInt_add]
    rw [abs_le] at hqs
    rw [abs_lt] at hb2
    exact bmod64_eq (by omega) (by omega)
  have hval : val M y r c = ((q r c).toInt : ℚ) / M.scale + β.toInt / M.scale := by
    unfold val
    rw [hyv]
    push_cast
    ring
  -- the error of the product
  have hd : |(p : ℚ) / (M.scale * M.scale) - ∑ k, v r k * l.weight (c, k)|
      ≤ ∑ k, (e r k * (|l.weight (c, k)| + 1 / M.scale) + |v r k| * (1 / M.scale)) := by
    rw [hpq, ← Finset.sum_sub_distrib]
    refine (Finset.abs_sum_le_sum_abs _ _).trans (Finset.sum_le_sum fun k _ => ?_)
    have e2 : val M x r k * ((layer.weight.value (c, k)).toInt / M.scale) - v r k * l.weight (c, k)
        = (val M x r k - v r k) * ((layer.weight.value (c, k)).toInt / M.scale)
          + v r k * ((layer.weight.value (c, k)).toInt / M.scale - l.weight (c, k)) := by ring
    rw [e2]
    refine (abs_add_le _ _).trans (add_le_add ?_ ?_)
    · rw [abs_mul]
      have : (0 : ℚ) ≤ 1 / M.scale := by positivity
      exact mul_le_mul (hv r k) (by linarith [(hw k).2]) (abs_nonneg _) (he k)
    · rw [abs_mul]
      exact mul_le_mul_of_nonneg_left (hw k).1 (abs_nonneg _)
  rw [hval]
  unfold TorchLinear.eval TorchLinear.error
  have e3 : ((q r c).toInt : ℚ) / M.scale + β.toInt / M.scale - (∑ k, v r k * l.weight (c, k) + l.biasAt c)
      = (((q r c).toInt : ℚ) / M.scale - p / (M.scale * M.scale)) + ((p : ℚ) / (M.scale * M.scale) - ∑ k, v r k * l.weight (c, k))
        + ((β.toInt : ℚ) / M.scale - l.biasAt c) := by ring
  rw [e3]
  refine (abs_add_le _ _).trans ?_
  have h6 := abs_add_le (((q r c).toInt : ℚ) / M.scale - p / (M.scale * M.scale)) ((p : ℚ) / (M.scale * M.scale) - ∑ k, v r k * l.weight (c, k))
  linarith

/-! ## relu -/

theorem relu_near (M : Machine Key) (hM : M.Fair) {b n : Nat} (x : MPCTensor (Fin b × Fin n → I64)) (hx : Ok M x)
    (v e : Fin b → Fin n → ℚ) (hv : ∀ r k, |val M x r k - v r k| ≤ e r k) (hf : ∀ r k, (|v r k| + e r k) * M.scale < 2 ^ 30)
    (w : NetState Key) (hi : Inv M w) :
    relu M x w = .error (.inr ()) ∨
    ∃ (y : MPCTensor (Fin b × Fin n → I64)) (w' : NetState Key), relu M x w = .ok (y, w') ∧ Inv M w' ∧ Ok M y ∧
      ∀ r c, |val M y r c - max (v r c) 0| ≤ e r c + 2 / M.scale := by
  have hS : (0 : ℚ) < M.scale := by exact_mod_cast hM.pos
  obtain ⟨f, f1, f2, f3⟩ := C16_additive_map M.env (flatHom b n) x hx.1 _ (WF.reconstruct hx.1)
  have f4 : f.session = M.session := by rw [ofShares_inv f1]; exact hx.2
  have f1' : MPCTensor.hookMethod flat x = .ok f := f1
  have hfv : f.value = flat x.value := by rw [WF.reconstruct f2] at f3; exact Except.ok.inj f3
  have hsmall : ∀ j, |(f.value j).toInt| < 2 ^ 30 := by
    intro j
    obtain ⟨⟨r, c⟩, rfl⟩ := finProdFinEquiv.surjective j
    have e1 : f.value (finProdFinEquiv (r, c)) = x.value (r, c) := by
      rw [hfv]
      unfold flat
      rw [Equiv.symm_apply_apply]
    rw [e1]
    have h1 : |val M x r c| ≤ |v r c| + e r c := by
      have := abs_sub_abs_le_abs_sub (val M x r c) (v r c)
      linarith [hv r c]
    unfold val at h1
    rw [abs_div, abs_of_pos hS, div_le_iff₀ hS] at h1
    have := lt_of_le_of_lt h1 (hf r c)
    exact_mod_cast this
  rcases C55_relu_session M hM f ⟨f2, f4⟩ hsmall w.2 hi.2 with h | ⟨z, s, h1, h2, h3, h4⟩
  · left
    simp only [relu, f1', h]
  right
  obtain ⟨u, u1, u2, u3⟩ := C16_additive_map M.env (unflatHom b n) z h3.1 _ (WF.reconstruct h3.1)
  have u4 : u.session = M.session := by rw [ofShares_inv u1]; exact h3.2
  have u1' : MPCTensor.hookMethod unflat z = .ok u := u1
  have huv : u.value = unflat z.value := by rw [WF.reconstruct u2] at u3; exact Except.ok.inj u3
  refine ⟨u, (w.1, s), by simp only [relu, f1', h1, u1'], ⟨hi.1, h2⟩, ⟨u2, u4⟩, fun r c => ?_⟩
  have h5 := h4 (finProdFinEquiv (r, c))
  have e1 : f.value (finProdFinEquiv (r, c)) = x.value (r, c) := by
    rw [hfv]
    unfold flat
    rw [Equiv.symm_apply_apply]
  have e2 : u.value (r, c) = z.value (finProdFinEquiv (r, c)) := by
    rw [huv]
    rfl
  rw [e1, ← e2] at h5
  have h6 : |val M u r c - max (val M x r c) 0| ≤ 2 / M.scale := by
    have e3 : max (val M x r c) 0 = ((max (x.value (r, c)).toInt 0 : Int) : ℚ) / M.scale := by
      unfold val
      push_cast
      rw [← max_div_div_right hS.le, zero_div]
    have e4 : val M u r c - max (val M x r c) 0 = (((u.value (r, c)).toInt - max (x.value (r, c)).toInt 0 : Int) : ℚ) / M.scale := by
      rw [e3]
      unfold val
      push_cast
      ring
    rw [e4, abs_div, abs_of_pos hS]
    apply div_le_div_of_nonneg_right _ hS.le
    exact_mod_cast h5
  have h7 : |max (val M x r c) 0 - max (v r c) 0| ≤ |val M x r c - v r c| := abs_max_sub_max_le_abs _ _ _
  have h8 := abs_sub_le (val M u r c) (max (val M x r c) 0) (max (v r c) 0)
  linarith [hv r c]

/-! ## Networks -/

/-- The networks made by `share`: layer by layer. -/
inductive Shares (M : Machine Key) : {i o : Nat} → Net TorchLinear i o → Net LinearLayer i o → Prop
  | done {n : Nat} : Shares M (.done : Net TorchLinear n n) .done
  | linear {i h o : Nat} {l : TorchLinear i h} {layer : LinearLayer i h} {rest : Net TorchLinear h o} {rest' : Net LinearLayer h o}
      (hl : Holds M l layer) (hr : Shares M rest rest') : Shares M (.linear l rest) (.linear layer rest')
  | relu {i o : Nat} {rest : Net TorchLinear i o} {rest' : Net LinearLayer i o} (hr : Shares M rest rest') :
      Shares M (.relu rest) (.relu rest')

theorem share_ok (M : Machine Key) (hM : M.Fair) (draw : Nat → Nat → Nat → Nat → I64) {i o : Nat} (net : Net TorchLinear i o) :
    ∀ k, ∃ shared, share M.env M.session draw k net = .ok shared ∧ Shares M net shared := by
  induction net with
  | done => exact fun k => ⟨_, rfl, .done⟩
  | relu rest ih =>
    intro k
    obtain ⟨s, h1, h2⟩ := ih k
    refine ⟨.relu s, ?_, .relu h2⟩
    unfold share
    rw [h1]
    rfl
  | linear l rest ih =>
    intro k
    obtain ⟨s, h1, h2⟩ := ih (k + 1)
    obtain ⟨layer, g1, g2, g3, g4, g5⟩ := C56_state_dict_round_trip M.env M.session hM.pair.toReady
      (fun p => Val.float (l.weight p)) (l.bias.map fun v j => Val.float (v j)) (fun r p => draw (2 * k) r p.1 p.2)
      fun r j => draw (2 * k + 1) r j 0
    refine ⟨.linear layer s, ?_, .linear ⟨⟨g4, g3⟩, g5, ?_, ?_⟩ h2⟩
    · unfold share
      rw [g1, ok_bind, h1]
      rfl
    · unfold LinearLayer.reconstruct at g2
      rw [WF.reconstruct g4, ok_bind] at g2
      cases hb : layer.bias with
      | none =>
        rw [hb] at g2
        exact congrArg Prod.fst (Except.ok.inj g2)
      | some v =>
        rw [hb] at g2
        dsimp only at g2
        rw [WF.reconstruct (g5 v (by rw [hb]; rfl)).1, ok_bind] at g2
        exact congrArg Prod.fst (Except.ok.inj g2)
    · unfold LinearLayer.reconstruct at g2
      rw [WF.reconstruct g4, ok_bind] at g2
      cases hb : layer.bias with
      | none =>
        rw [hb] at g2
        have := congrArg Prod.snd (Except.ok.inj g2)
        rw [Option.map_map] at this
        exact this
      | some v =>
        rw [hb] at g2
        dsimp only at g2
        rw [WF.reconstruct (g5 v (by rw [hb]; rfl)).1, ok_bind] at g2
        have := congrArg Prod.snd (Except.ok.inj g2)
        rw [Option.map_map] at this
        exact this

theorem forward_near (M : Machine Key) (hM : M.Fair) (rnd : (k : MatKey) → Nat → TripleRand (MatL k) (MatR k) (MatO k)) {b i o : Nat}
    {net : Net TorchLinear i o} {shared : Net LinearLayer i o} (hn : Shares M net shared) :
    ∀ (x : MPCTensor (Fin b × Fin i → I64)), Ok M x → ∀ (v e : Fin b → Fin i → ℚ), (∀ r k, |val M x r k - v r k| ≤ e r k) →
      (∀ r, net.Fits M.scale (v r) (e r)) → ∀ w, Inv M w →
      forward M rnd shared x w = .error (.inr ()) ∨
      ∃ y w', forward M rnd shared x w = .ok (y, w') ∧ Inv M w' ∧ Ok M y ∧
        ∀ r c, |val M y r c - net.eval (v r) c| ≤ net.error M.scale (v r) (e r) c := by
  induction hn with
  | done => exact fun x hx v e hv _ w hw => .inr ⟨x, w, rfl, hw, hx, hv⟩
  | linear hl _ ih =>
    intro x hx v e hv hf w hw
    rcases linear_near M hM rnd _ _ hl x hx v e hv (fun r => (hf r).1) w hw with h | ⟨y, w', h1, h2, h3, h4⟩
    · left
      unfold forward
      rw [h]
    · rcases ih y h3 _ _ h4 (fun r => (hf r).2) w' h2 with h | ⟨z, w'', g1, g2, g3, g4⟩
      · left
        unfold forward
        rw [h1]
        exact h
      · right
        refine ⟨z, w'', ?_, g2, g3, g4⟩
        unfold forward
        rw [h1]
        exact g1
  | relu _ ih =>
    intro x hx v e hv hf w hw
    rcases relu_near M hM x hx v e hv (fun r => (hf r).1) w hw with h | ⟨y, w', h1, h2, h3, h4⟩
    · left
      unfold forward
      rw [h]
    · rcases ih y h3 (fun r k => max (v r k) 0) (fun r k => e r k + 2 / M.scale) h4 (fun r => (hf r).2) w' h2 with
        h | ⟨z, w'', g1, g2, g3, g4⟩
      · left
        unfold forward
        rw [h1]
        exact h
      · right
        refine ⟨z, w'', ?_, g2, g3, g4⟩
        unfold forward
        rw [h1]
        exact g1

/-- C86: a network of linear layers and `relu`, of any depth and widths, is shared, and applied to a shared batch of inputs.  No exception
is raised; unless one of the recorded events ends the computation, every opened output is that of the network of torch, off by at most
`net.error`, which can be computed in advance.  This holds in every state that earlier computations leave (`Inv`), such as the first one
(`inv_empty`). -/
theorem C86_inference (M : Machine Key) (hM : M.Fair) (rnd : (k : MatKey) → Nat → TripleRand (MatL k) (MatR k) (MatO k))
    (draw : Nat → Nat → Nat → Nat → I64) (drawX : Nat → Nat → Nat → I64) {b i o : Nat} (net : Net TorchLinear i o)
    (input : Fin b → Fin i → ℚ) (hin : ∀ r k, |input r k| * M.scale < 2 ^ 62)
    (hfit : ∀ r, net.Fits M.scale (input r) fun _ => 1 / M.scale) (w : NetState Key) (hw : Inv M w) :
    predict M rnd draw drawX net input w = .error (.inr ()) ∨
    ∃ out w', predict M rnd draw drawX net input w = .ok (out, w') ∧ Inv M w' ∧
      ∀ r c, |out r c - net.eval (input r) c| ≤ net.error M.scale (input r) (fun _ => 1 / M.scale) c := by
  obtain ⟨shared, s1, s2⟩ := share_ok M hM draw net 0
  obtain ⟨x, x1, x2, x3, x4⟩ := ofSecret_ok M.env M.session hM.pair.toReady (fun p : Fin b × Fin i => Val.float (input p.1 p.2))
    fun r (p : Fin b × Fin i) => drawX r p.1 p.2
  have hxv : x.value = fun p : Fin b × Fin i => M.session.config.encoder.encode (Val.float (input p.1 p.2)) := by
    rw [WF.reconstruct x3] at x4
    exact Except.ok.inj x4
  rcases forward_near M hM rnd s2 x ⟨x3, x2⟩ input (fun _ _ => 1 / M.scale)
    (fun r k => by
      unfold val
      rw [hxv]
      exact (encode_near M hM _ (hin r k)).1) hfit w hw with h | ⟨y, w', h1, h2, h3, h4⟩
  · left
    unfold predict
    rw [s1]
    dsimp only
    rw [x1]
    dsimp only
    rw [h]
  · right
    refine ⟨fun r c => val M y r c, w', ?_, h2, h4⟩
    unfold predict
    rw [s1]
    dsimp only
    rw [x1]
    dsimp only
    rw [h1]
    dsimp only
    rw [WF.reconstruct h3.1]
    rfl

/-- C86: if an output of the network leads by more than the errors, it is also the largest one that is opened: the shared network predicts the
same class. -/
theorem C86_same_class (M : Machine Key) (hM : M.Fair) (rnd : (k : MatKey) → Nat → TripleRand (MatL k) (MatR k) (MatO k))
    (draw : Nat → Nat → Nat → Nat → I64) (drawX : Nat → Nat → Nat → I64) {b i o : Nat} (net : Net TorchLinear i o)
    (input : Fin b → Fin i → ℚ) (hin : ∀ r k, |input r k| * M.scale < 2 ^ 62)
    (hfit : ∀ r, net.Fits M.scale (input r) fun _ => 1 / M.scale) (best : Fin b → Fin o)
    (hbest : ∀ r c, c ≠ best r → net.eval (input r) c + net.error M.scale (input r) (fun _ => 1 / M.scale) c
      < net.eval (input r) (best r) - net.error M.scale (input r) (fun _ => 1 / M.scale) (best r)) (w : NetState Key) (hw : Inv M w) :
    predict M rnd draw drawX net input w = .error (.inr ()) ∨
    ∃ out w', predict M rnd draw drawX net input w = .ok (out, w') ∧ ∀ r c, c ≠ best r → out r c < out r (best r) := by
  rcases C86_inference M hM rnd draw drawX net input hin hfit w hw with h | ⟨out, w', h1, h2, h3⟩
  · exact .inl h
  · refine .inr ⟨out, w', h1, fun r c hc => ?_⟩
    have a1 := abs_le.mp (h3 r c)
    have a2 := abs_le.mp (h3 r (best r))
    linarith [hbest r c hc, a1.1, a1.2, a2.1, a2.2]

/-! ## Examples -/

/-- two inputs, two hidden numbers, two outputs -/
def exNet : Net TorchLinear 2 2 :=
  .linear ⟨fun p => ![![1, -1 / 2], ![-2, 1]] p.1 p.2, some ![1 / 4, 0]⟩ <| .relu <|
  .linear ⟨fun p => ![![1, 1], ![2, -1]] p.1 p.2, none⟩ .done

/-- the outputs of torch for the inputs `(3, 1)` and `(-1, 2)` -/
example : (List.finRange 2).map (exNet.eval ![3, 1]) = [11 / 4, 11 / 2] ∧ (List.finRange 2).map (exNet.eval ![-1, 2]) = [4, -4] := by
  decide +kernel

/-- C86: the outputs that are opened -/
example : ((predict exMachine exMatRnd (fun k r p q => BitVec.ofNat 64 (1000 * k + 100 * r + 10 * p + q)) (fun r p q => BitVec.ofNat 64 (r + 7 * p + q))
    exNet ![![3, 1], ![-1, 2]] empty).toOption.map fun z => [z.1 0 0, z.1 0 1, z.1 1 0, z.1 1 1])
    = some [11 / 4, 11 / 2, 4, -4 + 1 / 65536] := by decide +kernel

/-- the hypotheses of `C86_inference` and `C86_same_class` for these inputs; the errors are below a thousandth -/
example : exMachine.scale = 65536 ∧ (∀ r k : Fin 2, |(![![3, 1], ![-1, 2]] : Fin 2 → Fin 2 → ℚ) r k| * 65536 < 2 ^ 62) ∧
    (∀ r : Fin 2, exNet.Fits 65536 ((![![3, 1], ![-1, 2]] : Fin 2 → Fin 2 → ℚ) r) fun _ => 1 / 65536) ∧
    (∀ r c : Fin 2, exNet.error 65536 ((![![3, 1], ![-1, 2]] : Fin 2 → Fin 2 → ℚ) r) (fun _ => 1 / 65536) c < 1 / 1000) ∧
    ∀ r c : Fin 2, c ≠ (![1, 0] : Fin 2 → Fin 2) r →
      exNet.eval ((![![3, 1], ![-1, 2]] : Fin 2 → Fin 2 → ℚ) r) c
          + exNet.error 65536 ((![![3, 1], ![-1, 2]] : Fin 2 → Fin 2 → ℚ) r) (fun _ => 1 / 65536) c
        < exNet.eval ((![![3, 1], ![-1, 2]] : Fin 2 → Fin 2 → ℚ) r) ((![1, 0] : Fin 2 → Fin 2) r)
          - exNet.error 65536 ((![![3, 1], ![-1, 2]] : Fin 2 → Fin 2 → ℚ) r) (fun _ => 1 / 65536) ((![1, 0] : Fin 2 → Fin 2) r) := by
  refine ⟨by decide, by decide +kernel, fun r => ⟨⟨?_, ?_, ?_⟩, ?_, ⟨?_, ?_, ?_⟩, trivial⟩, by decide +kernel, by decide +kernel⟩
  · decide +kernel
  · intro b hb
    cases hb
    decide +kernel
  · revert r
    decide +kernel
  · revert r
    decide +kernel
  · decide +kernel
  · intro b hb
    cases hb
  · revert r
    decide +kernel

end SyMPC.Network
