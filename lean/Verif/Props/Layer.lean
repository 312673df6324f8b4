import Verif.Model.Layer
import Verif.Props.AlgoMachine

/-!
# C56: linear layers and stochastic gradient descent
-/

namespace SyMPC

open FixedPointEncoder (Val)
open Machine (ofShares_inv lift start)

/-! ## Matrix products -/

/-- the matrix product is additive in both operands -/
def matHom (k : MatKey) : MatL k →+ MatR k →+ MatO k :=
  AddMonoidHom.mk' (fun a => AddMonoidHom.mk' (fun b => matProd k a b) (by
    intro b c
    funext p
    simp only [matProd, Pi.add_apply, mul_add, Finset.sum_add_distrib])) (by
    intro a b
    ext c p
    simp only [matProd, AddMonoidHom.mk'_apply, Pi.add_apply, AddMonoidHom.add_apply, add_mul, Finset.sum_add_distrib])

theorem matHom_apply (k : MatKey) (a : MatL k) (b : MatR k) : matHom k a b = matProd k a b := rfl

def matTHom (m n : Nat) : (Fin m × Fin n → I64) →+ (Fin n × Fin m → I64) := AddMonoidHom.mk' matT fun _ _ => rfl

def matRowsHom (m n : Nat) : (Fin n → I64) →+ (Fin m × Fin n → I64) := AddMonoidHom.mk' matRows fun _ _ => rfl

theorem ofInt_sum {n : Nat} (f : Fin n → Int) : BitVec.ofInt 64 (∑ l, f l) = ∑ l, BitVec.ofInt 64 (f l) := by
  induction n with
  | zero => simp
  | succ n ih => rw [Fin.sum_univ_succ, Fin.sum_univ_succ, BitVec.ofInt_add, ih]

/-- The element of a matrix product, as an integer. -/
theorem matProd_ofInt (k : MatKey) (a : MatL k) (b : MatR k) (p : Fin k.1 × Fin k.2.2) :
    matProd k a b p = BitVec.ofInt 64 (∑ l, (a (p.1, l)).toInt * (b (l, p.2)).toInt) := by
  rw [ofInt_sum]
  unfold matProd
  apply Finset.sum_congr rfl
  intro l _
  rw [BitVec.ofInt_mul, BitVec.ofInt_toInt, BitVec.ofInt_toInt]

/-! ## Linear -/

/-- C56: a linear layer of two parties, in any state of the stores that its products leave.  The shares of the result are two
shares `z0`, `z1` of the untruncated product `x W^T` divided by the scale, plus those of the bias.  Where the product and the bias fit
and `z0 + z1` does not leave the ring, the result is `x W^T + b` of the reconstructed tensors, off by less than two quanta. -/
theorem C56_linear_partial (env : Env) (s : Session) (hs : s.Live env) (hn : s.nrParties = 2)
    (hsc : s.config.encoderBase ^ s.config.encoderPrecision < 2 ^ 63) (hb : 0 < s.config.encoderBase)
    (rnd : (k : MatKey) → Nat → TripleRand (MatL k) (MatR k) (MatO k)) {b i o : Nat} (layer : LinearLayer i o)
    (x : MPCTensor (Fin b × Fin i → I64)) (hx : x.WF env) (hxs : x.session = s) (hw : layer.weight.WF env) (hws : layer.weight.session = s)
    (hbias : ∀ v ∈ layer.bias, v.WF env ∧ v.session = s)
    (w : MatWorld) (q : MatKey → List Nat) (ts : (k : MatKey) → Nat → Nat → Triple (MatL k) (MatR k) (MatO k))
    (hg : w.Good (fun k (_ : Unit) a b => matProd k a b) s q (fun _ => ()) ts)
    (xv : Fin b × Fin i → I64) (wv : Fin o × Fin i → I64) (bv : Fin o → I64)
    (hxv : x.reconstruct = .ok xv) (hwv : layer.weight.reconstruct = .ok wv)
    (hbv : match layer.bias with | none => bv = 0 | some v => v.reconstruct = .ok bv) :
    ∃ (out : MPCTensor (Fin b × Fin o → I64)) (w' : MatWorld) (q' : MatKey → List Nat)
      (ts' : (k : MatKey) → Nat → Nat → Triple (MatL k) (MatR k) (MatO k)) (z0 z1 y : Fin b × Fin o → I64),
      layer.forward env rnd x w = .ok (out, w') ∧ w'.Good (fun k (_ : Unit) a b => matProd k a b) s q' (fun _ => ()) ts' ∧
      out.WF env ∧ out.session = s ∧ out.reconstruct = .ok y ∧
      (∀ r c, z0 (r, c) + z1 (r, c) = BitVec.ofInt 64 (∑ l, (xv (r, l)).toInt * (wv (c, l)).toInt)) ∧
      ∀ r c, |∑ l, (xv (r, l)).toInt * (wv (c, l)).toInt| < 2 ^ 62 → |(bv c).toInt| < 2 ^ 61 →
        -2 ^ 63 ≤ (z0 (r, c)).toInt + (z1 (r, c)).toInt → (z0 (r, c)).toInt + (z1 (r, c)).toInt < 2 ^ 63 →
        |(y (r, c)).toInt * (s.config.encoderBase ^ s.config.encoderPrecision : Nat)
          - (∑ l, (xv (r, l)).toInt * (wv (c, l)).toInt + (bv c).toInt * (s.config.encoderBase ^ s.config.encoderPrecision : Nat))|
          < 2 * (s.config.encoderBase ^ s.config.encoderPrecision : Nat) := by
  have hS0 : 0 < s.config.encoderBase ^ s.config.encoderPrecision := Nat.pow_pos hb
  obtain ⟨wt, t1, t2, t3⟩ := C16_additive_map env (matTHom o i) layer.weight hw _ hwv
  have t4 : wt.session = s := by rw [ofShares_inv t1]; exact hws
  have g := mul_step env s hs (fun k (_ : Unit) => matHom k) matTrunc rnd w q (fun _ => ()) ts hg (b, i, o) () x wt hx t2 hxs t4
  obtain ⟨out, w', q', kwOf', ts', j, zs, a', b', g1, g2, -, -, -, -, -, -, -, -, -, -, g11, g12, g13, g14, g15⟩ := g
  have hwf : out.result.WF env := ⟨by rw [g11]; exact hs.toReady, by rw [g12, g11]⟩
  rw [hn] at g14
  obtain ⟨z0, z1, rfl⟩ : ∃ z0 z1, zs = [z0, z1] := by
    match zs, g14 with
    | [z0, z1], _ => exact ⟨z0, z1, rfl⟩
  rw [if_pos hn] at g13
  have hxv' : x.value = xv := by rw [WF.reconstruct hx] at hxv; exact Except.ok.inj hxv
  have hwv' : wt.value = matT wv := by rw [WF.reconstruct t2] at t3; exact Except.ok.inj t3
  have hz : ∀ r c, z0 (r, c) + z1 (r, c) = BitVec.ofInt 64 (∑ l, (xv (r, l)).toInt * (wv (c, l)).toInt) := by
    intro r c
    have : z0 + z1 = matProd (b, i, o) x.value wt.value := by
      have := g15
      simp only [sub_self, add_zero] at this
      simpa [matHom_apply] using this
    have h2 := congrFun this (r, c)
    rw [matProd_ofInt, hxv', hwv'] at h2
    exact h2
  have hkw : kwOf' = fun _ => () := rfl
  rw [hkw] at g2
  -- the product
  have hprod : ∀ r c, |∑ l, (xv (r, l)).toInt * (wv (c, l)).toInt| < 2 ^ 62 →
      TruncatedProduct (z0 (r, c)) (z1 (r, c)) (out.result.value (r, c)) (∑ l, (xv (r, l)).toInt * (wv (c, l)).toInt)
        (s.config.encoderBase ^ s.config.encoderPrecision : Nat) := by
    intro r c hp
    rw [abs_lt] at hp
    have hv : (z0 (r, c) + z1 (r, c)).toInt = ∑ l, (xv (r, l)).toInt * (wv (c, l)).toInt := by
      rw [hz, toInt_ofInt64 (by omega) (by omega)]
    have hsum : out.result.value (r, c)
        = floordiv (z0 (r, c)) (BitVec.ofInt 64 ((s.config.encoderBase ^ s.config.encoderPrecision : Nat) : Int))
          + floordiv (z1 (r, c)) (BitVec.ofInt 64 ((s.config.encoderBase ^ s.config.encoderPrecision : Nat) : Int)) := by
      unfold MPCTensor.value
      rw [g13]
      simp only [matTrunc, List.map_cons, List.map_nil, List.sum_cons, List.sum_nil, add_zero, Pi.add_apply, BitVec.ofInt_natCast]
    rw [hsum]
    exact truncatedProduct _ _ _ _ (by exact_mod_cast hS0) (by exact_mod_cast hsc) hv
  have hfin : ∀ (y : Fin b × Fin o → I64), (∀ r c, y (r, c) = out.result.value (r, c) + bv c) →
      ∀ r c, |∑ l, (xv (r, l)).toInt * (wv (c, l)).toInt| < 2 ^ 62 → |(bv c).toInt| < 2 ^ 61 →
        -2 ^ 63 ≤ (z0 (r, c)).toInt + (z1 (r, c)).toInt → (z0 (r, c)).toInt + (z1 (r, c)).toInt < 2 ^ 63 →
        |(y (r, c)).toInt * (s.config.encoderBase ^ s.config.encoderPrecision : Nat)
          - (∑ l, (xv (r, l)).toInt * (wv (c, l)).toInt + (bv c).toInt * (s.config.encoderBase ^ s.config.encoderPrecision : Nat))|
          < 2 * (s.config.encoderBase ^ s.config.encoderPrecision : Nat) := by
    intro y hy r c h1 h2 h3 h4
    have key := (hprod r c h1).1 h3 h4
    have hS1 : (1 : Int) ≤ (s.config.encoderBase ^ s.config.encoderPrecision : Nat) := by exact_mod_cast hS0
    generalize ((s.config.encoderBase ^ s.config.encoderPrecision : Nat) : Int) = S at *
    generalize ∑ l, (xv (r, l)).toInt * (wv (c, l)).toInt = p at *
    have hQ : |(out.result.value (r, c)).toInt| < 2 ^ 62 + 2 := by
      rw [abs_lt] at key h1 ⊢
      constructor
      · by_contra hc
        nlinarith
      · by_contra hc
        nlinarith
    have hyv : (y (r, c)).toInt = (out.result.value (r, c)).toInt + (bv c).toInt := by
      rw [hy, BitVec.toInt_add]
      rw [abs_lt] at hQ h2
      exact bmod64_eq (by omega) (by omega)
    rw [hyv]
    have e : ((out.result.value (r, c)).toInt + (bv c).toInt) * S - (p + (bv c).toInt * S) = (out.result.value (r, c)).toInt * S - p := by
      ring
    rw [e]
    exact key
  have t1' : MPCTensor.hookMethod matT layer.weight = .ok wt := t1
  have g1' : mulMaster (Kw := Unit) env (fun k _ a b => matProd k a b) matTrunc rnd (b, i, o) () w x wt = .ok (out, w') := g1
  unfold LinearLayer.forward
  rw [t1', ok_bind, g1', ok_bind]
  cases hb' : layer.bias with
  | none =>
    rw [hb'] at hbv
    have hv : ∀ c, bv c = 0 := by
      intro c
      rw [show bv = 0 from hbv]
      rfl
    exact ⟨out.result, w', q', ts', z0, z1, _, rfl, g2, hwf, g11, WF.reconstruct hwf, hz, hfin _ (by intro r c; rw [hv, add_zero]; rfl)⟩
  | some v =>
    rw [hb'] at hbv
    obtain ⟨v1, v2⟩ := hbias v (by rw [hb']; rfl)
    obtain ⟨vr, u1, u2, u3⟩ := C16_additive_map env (matRowsHom b o) v v1 _ hbv
    have u4 : vr.session = s := by rw [ofShares_inv u1]; exact v2
    obtain ⟨z, p1, p2, p3, p4⟩ := priv_ok (P := Empty) env .add out.result vr hwf u2 (by rw [u4, g11]) _ _ (WF.reconstruct hwf) u3
    have u1' : MPCTensor.hookMethod (matRows (m := b)) v = .ok vr := u1
    refine ⟨z, w', q', ts', z0, z1, _, ?_, g2, p3, by rw [p2, g11], p4, hz, hfin _ ?_⟩
    · dsimp only
      rw [u1', ok_bind, p1]
      rfl
    · intro r c
      rfl

/-- C56: sharing the weights of a local layer and reconstructing them gives the encoded weights back. -/
theorem C56_state_dict_round_trip (env : Env) (s : Session) (hs : s.Ready env) {i o : Nat} (weight : Fin o × Fin i → Val)
    (bias : Option (Fin o → Val)) (drawW : Nat → Fin o × Fin i → I64) (drawB : Nat → Fin o → I64) :
    ∃ layer : LinearLayer i o, LinearLayer.share env s weight bias drawW drawB = .ok layer ∧
      layer.reconstruct = .ok (fun p => s.config.encoder.encode (weight p), bias.map fun v j => s.config.encoder.encode (v j)) ∧
      layer.weight.session = s ∧ layer.weight.WF env ∧ ∀ v ∈ layer.bias, v.WF env ∧ v.session = s := by
  obtain ⟨w, w1, w2, w3, w4⟩ := ofSecret_ok env s hs weight drawW
  cases bias with
  | none =>
    refine ⟨⟨w, none⟩, ?_, ?_, w2, w3, by simp⟩
    · unfold LinearLayer.share
      rw [w1]
      rfl
    · unfold LinearLayer.reconstruct
      rw [w4]
      rfl
  | some v =>
    obtain ⟨b, b1, b2, b3, b4⟩ := ofSecret_ok env s hs v drawB
    refine ⟨⟨w, some b⟩, ?_, ?_, w2, w3, ?_⟩
    · unfold LinearLayer.share
      rw [w1, ok_bind]
      simp only [b1, ok_bind]
      rfl
    · unfold LinearLayer.reconstruct
      rw [w4, ok_bind]
      simp only [b4, ok_bind]
      rfl
    · intro v hv
      cases hv
      exact ⟨b3, b2⟩

/-! ## SGD -/

section Sgd

variable {Key : Type}

/-- What a step of gradient descent is: `t' = t - lr * grad`, up to two quanta and the precision of `lr`. -/
def Stepped (M : Machine Key) (lr : ℚ) (p p' : Param) : Prop :=
  ∃ t, p' = { p with tensor := t } ∧ M.Ok t ∧
    ∀ g ∈ p.grad, ∀ i, |M.val t i - (M.val p.tensor i - lr * M.val g i)| ≤ (2 + |M.val g i|) / M.scale

/-- A parameter with gradient whose step fits: secrets of the session, `|t| < 2^62` and `|lr * g| < 2^61` quanta before truncation. -/
def Param.Fits (M : Machine Key) (lr : ℚ) (p : Param) : Prop :=
  M.Ok p.tensor ∧ ∃ g, p.grad = some g ∧ M.Ok g ∧ ∀ i, |((p.tensor.value i).toInt : ℚ)| < 2 ^ 62 ∧
    |((g.value i).toInt : ℚ)| * (|lr| * M.scale) < 2 ^ 61

theorem param_step (M : Machine Key) (hM : M.Fair) (lr : ℚ) (w : MState Key) (hw : M.Inv w) (p : Param) (hp : p.Fits M lr) :
    p.step M lr w = .error (.inr ()) ∨ ∃ p', p.step M lr w = .ok p' ∧ Stepped M lr p p' := by
  obtain ⟨ht, g, hg, hgo, hfit⟩ := hp
  have hS0 : 0 < M.scale := hM.pos
  have hS : (0 : ℚ) < M.scale := by exact_mod_cast hS0
  obtain ⟨e, e1, e2, e3⟩ := M.encode_pubVal lr
  have hsure := Machine.mulPublic_ok M hM g (fun _ => pubVal lr) hgo (fun z => M.Ok z ∧ ∀ i, |(z.value i).toInt * M.scale
        - (g.value i * M.session.config.encoder.encode (pubVal lr)).toInt| ≤ 2 * (M.scale - 1)) (fun z hz h => ⟨hz, fun i => (h i).1⟩)
  unfold Param.step
  rw [hg]
  rcases hsure w hw with h | ⟨d, w', h, ⟨hd, hdv⟩, -⟩
  · left
    simp only [h]
  · right
    obtain ⟨z, z1, z2, z3⟩ := Machine.lin_ok M .sub p.tensor d ht hd
    have hz : MPCTensor.isub (P := Empty) M.env p.tensor (.inr d) = .ok { p.tensor with shares := z.shares } := by
      simp only [MPCTensor.isub, z1, ok_bind]; rfl
    have hzz : ({ p.tensor with shares := z.shares } : MX p.n) = z := by
      dsimp only
      rw [ht.2, ← z2.2]
    refine ⟨{ p with tensor := z }, ?_, z, rfl, z2, ?_⟩
    · simp only [h, hz, hzz, hg]
    · intro g' hg' i
      rw [hg] at hg'
      cases hg'
      have hk := hdv i
      obtain ⟨f1, f2⟩ := hfit i
      -- the product does not wrap
      have hge : |((g.value i).toInt * e : ℚ)| < 2 ^ 61 := by
        rw [abs_mul]
        exact lt_of_le_of_lt (mul_le_mul_of_nonneg_left e2 (abs_nonneg _)) f2
      have hge' : |(g.value i).toInt * e| < 2 ^ 61 := by exact_mod_cast hge
      rw [e1] at hk
      have hprod : (g.value i * BitVec.ofInt 64 e).toInt = (g.value i).toInt * e := by
        apply Machine.toInt_eq_of
        · rw [BitVec.ofInt_mul, BitVec.ofInt_toInt]
        · exact lt_trans hge' (by norm_num)
      rw [hprod] at hk
      have hv : z.value i = p.tensor.value i - d.value i := by
        rw [z3]
        rfl
      have hdb : |(d.value i).toInt| < 2 ^ 62 := by
        have h1 : (1 : Int) ≤ M.scale := by exact_mod_cast hS0
        generalize (M.scale : Int) = S at *
        rw [abs_le] at hk
        rw [abs_lt] at hge' ⊢
        constructor
        · by_contra hc
          nlinarith
        · by_contra hc
          nlinarith
      have f1' : |(p.tensor.value i).toInt| < 2 ^ 62 := by exact_mod_cast f1
      have hvi : (z.value i).toInt = (p.tensor.value i).toInt - (d.value i).toInt := by
        rw [hv, BitVec.toInt_sub]
        rw [abs_lt] at hdb f1'
        exact bmod64_eq (by omega) (by omega)
      have hkq : |((d.value i).toInt : ℚ) * M.scale - (g.value i).toInt * e| ≤ 2 * (M.scale - 1) := by exact_mod_cast hk
      unfold Machine.val
      rw [hvi]
      push_cast
      have key : ((p.tensor.value i).toInt - (d.value i).toInt : ℚ) / M.scale
          - ((p.tensor.value i).toInt / M.scale - lr * ((g.value i).toInt / M.scale))
          = (-(((d.value i).toInt : ℚ) * M.scale - (g.value i).toInt * e) + (g.value i).toInt * (lr * M.scale - e)) / (M.scale * M.scale) := by
        field_simp
        ring
      rw [key, abs_div, abs_of_pos (mul_pos hS hS), abs_div, abs_of_pos hS, div_le_div_iff₀ (mul_pos hS hS) hS]
      have b1 := abs_add_le (-(((d.value i).toInt : ℚ) * M.scale - (g.value i).toInt * e)) ((g.value i).toInt * (lr * M.scale - e))
      rw [abs_neg, abs_mul] at b1
      have b2 : |((g.value i).toInt : ℚ)| * |lr * M.scale - e| ≤ |((g.value i).toInt : ℚ)| :=
        mul_le_of_le_one_right (abs_nonneg _) e3.le
      have b3 : (2 + |((g.value i).toInt : ℚ)| / M.scale) * (M.scale * M.scale) = (2 * M.scale + |((g.value i).toInt : ℚ)|) * M.scale := by
        field_simp
      rw [b3]
      apply mul_le_mul_of_nonneg_right _ hS.le
      linarith

theorem stepLoop_ok (M : Machine Key) (hM : M.Fair) (lr : ℚ) (w : MState Key) (hw : M.Inv w) (ps rest : List Param)
    (hp : ∀ p ∈ ps, p.Fits M lr) :
    (stepLoop M lr w (ps ++ rest)).2.2 = .error (.inr ()) ∨
    ∃ ps', List.Forall₂ (Stepped M lr) ps ps' ∧
      stepLoop M lr w (ps ++ rest) = (ps' ++ (stepLoop M lr w rest).1, ps.length + (stepLoop M lr w rest).2.1, (stepLoop M lr w rest).2.2) := by
  induction ps with
  | nil => exact .inr ⟨[], .nil, by simp⟩
  | cons p ps ih =>
    have hcons : ∀ l : List Param, stepLoop M lr w (p :: l) = match p.step M lr w with
        | .error e => (p :: l, 1, .error e)
        | .ok p' => (p' :: (stepLoop M lr w l).1, (stepLoop M lr w l).2.1 + 1, (stepLoop M lr w l).2.2) := fun _ => rfl
    rw [List.cons_append, hcons]
    rcases param_step M hM lr w hw p (hp p (by simp)) with h | ⟨p', h, hp'⟩
    · left
      rw [h]
    · rcases ih (fun p h => hp p (by simp [h])) with h2 | ⟨ps', h3, h4⟩
      · left
        rw [h]
        exact h2
      · right
        refine ⟨p' :: ps', .cons hp' h3, ?_⟩
        rw [h]
        simp only [h4]
        rw [List.length_cons, Nat.add_right_comm]
        rfl

/-- C56: one step of SGD on a list of parameters which all have gradients.  Unless the shares of a product leave the ring, every
parameter becomes `t - lr * grad` up to two quanta and the precision of the learning rate; gradients stay. -/
theorem C56_sgd_step_partial (M : Machine Key) (hM : M.Fair) (w : MState Key) (hw : M.Inv w) (lr : ℚ) (ps : List Param)
    (hp : ∀ p ∈ ps, p.Fits M lr) :
    ((Sgd.mk lr none).step M w ps).2.2 = .error (.inr ()) ∨
    ∃ ps', (Sgd.mk lr none).step M w ps = (Sgd.mk lr none, ps', .ok ()) ∧ List.Forall₂ (Stepped M lr) ps ps' := by
  rcases stepLoop_ok M hM lr w hw ps [] hp with h | ⟨ps', h1, h2⟩
  · left
    rw [List.append_nil] at h
    exact h
  · right
    rw [List.append_nil] at h2
    refine ⟨ps', ?_, h1⟩
    simp only [Sgd.step, Option.getD_none, List.drop_zero, h2, stepLoop, List.append_nil, List.take_zero, List.nil_append, Option.map_none]

/-- C56 fails part way: when a parameter has no gradient, the step raises a `TypeError` after the parameters before it were changed;
those after it are not. -/
theorem C56_missing_gradient (M : Machine Key) (hM : M.Fair) (w : MState Key) (hw : M.Inv w) (lr : ℚ) (ps : List Param) (p : Param)
    (rest : List Param) (hp : ∀ p ∈ ps, p.Fits M lr) (hn : p.grad = none) :
    ((Sgd.mk lr none).step M w (ps ++ p :: rest)).2.2 = .error (.inr ()) ∨
    ∃ ps', (Sgd.mk lr none).step M w (ps ++ p :: rest) = (Sgd.mk lr none, ps' ++ p :: rest, .error (.inl .typeError)) ∧
      List.Forall₂ (Stepped M lr) ps ps' := by
  have hr : stepLoop M lr w (p :: rest) = (p :: rest, 1, .error (.inl .typeError)) := by
    unfold stepLoop Param.step
    rw [hn]
  rcases stepLoop_ok M hM lr w hw ps (p :: rest) hp with h | ⟨ps', h1, h2⟩
  · exact .inl h
  · right
    refine ⟨ps', ?_, h1⟩
    simp only [Sgd.step, Option.getD_none, List.drop_zero, h2, hr, List.take_zero, List.nil_append, Option.map_none]

/-- C56: `zero_grad` removes every gradient, and nothing else. -/
theorem C56_zero_grad (lr : ℚ) (ps : List Param) :
    ((Sgd.mk lr none).zeroGrad ps).2 = ps.map fun p => { p with grad := none } := by
  simp [Sgd.zeroGrad]

/-- C56 fails for an optimizer made from a generator, such as `SGD(layer.parameters(), lr)`: the first step is as it should be, but
neither `zero_grad` nor any step after it changes anything, and no exception says so. -/
theorem C56_sgd_generator (M : Machine Key) (hM : M.Fair) (w : MState Key) (hw : M.Inv w) (lr : ℚ) (ps : List Param)
    (hp : ∀ p ∈ ps, p.Fits M lr) :
    ((Sgd.mk lr (some 0)).step M w ps).2.2 = .error (.inr ()) ∨
    ∃ o ps', (Sgd.mk lr (some 0)).step M w ps = (o, ps', .ok ()) ∧ List.Forall₂ (Stepped M lr) ps ps' ∧
      o.zeroGrad ps' = (o, ps') ∧ ∀ w', o.step M w' ps' = (o, ps', .ok ()) := by
  rcases stepLoop_ok M hM lr w hw ps [] hp with h | ⟨ps', h1, h2⟩
  · left
    rw [List.append_nil] at h
    exact h
  · right
    rw [List.append_nil] at h2
    have hl : ps.length = ps'.length := h1.length_eq
    refine ⟨⟨lr, some ps'.length⟩, ps', ?_, h1, ?_, ?_⟩
    · simp [Sgd.step, h2, stepLoop, hl]
    · simp [Sgd.zeroGrad]
    · intro w'
      simp [Sgd.step, stepLoop]

/-- C56 fails for an optimizer made from a generator that starts with `zero_grad`: no step ever changes anything. -/
theorem C56_sgd_generator_zero_first (M : Machine Key) (w : MState Key) (lr : ℚ) (ps qs : List Param) (hl : ps.length = qs.length) :
    (((Sgd.mk lr (some 0)).zeroGrad ps).1.step M w qs).2 = (qs, .ok ()) := by
  simp [Sgd.step, Sgd.zeroGrad, stepLoop, hl]

end Sgd

/-! ## Examples -/

/-- weight 2.5 and -1, bias 0.25, of one output -/
def exLinear : LinearLayer 2 1 :=
  ⟨exPairSecret (fun p => if p.2 = 0 then 163840 - 777 else BitVec.ofInt 64 (-65536 - 999)) (fun p => if p.2 = 0 then 777 else 999),
    some (exPairSecret (fun _ => 16384 + 5) (fun _ => BitVec.ofInt 64 (-5)))⟩

/-- inputs 3 and 1.5 -/
def exInput : MPCTensor (Fin 1 × Fin 2 → I64) :=
  exPairSecret (fun p => if p.2 = 0 then 196608 + 31 else 98304 + 42) (fun p => if p.2 = 0 then BitVec.ofInt 64 (-31) else BitVec.ofInt 64 (-42))

def exMatRnd (k : MatKey) (_ : Nat) : TripleRand (MatL k) (MatR k) (MatO k) :=
  ⟨fun p => BitVec.ofNat 64 (1000 * p.1 + 77 * p.2 + 5), fun p => BitVec.ofInt 64 (-5 * p.1 + 3 * p.2 + 9), fun _ _ => 12345,
    fun _ _ => 54321, fun _ _ => 99999⟩

/-- C56: `2.5 * 3 - 1 * 1.5 + 0.25 = 6.25`. -/
example : ((exLinear.forward exPairEnv exMatRnd exInput World.empty).toOption.map fun r => (r.1.value (0, 0)).toInt)
    = some (6 * 65536 + 16384) := by decide +kernel

/-- the hypotheses of `C56_linear_partial` for this layer -/
example : exInput.WF exPairEnv ∧ exInput.session = exPair ∧ exLinear.weight.WF exPairEnv ∧ exLinear.weight.session = exPair ∧
    (∀ v ∈ exLinear.bias, v.WF exPairEnv ∧ v.session = exPair) ∧ exPair.nrParties = 2 := by
  refine ⟨exPairSecret_wf _ _, rfl, exPairSecret_wf _ _, rfl, ?_, rfl⟩
  intro v hv
  cases hv
  exact ⟨exPairSecret_wf _ _, rfl⟩

/-- two parameters, the second one without gradient if `last` is false: 1.5 with gradient 2, and (-0.5, 3) with gradient (1, -1) -/
def exParams (last : Bool) : List Param :=
  [⟨1, exVector ![98304], some (exVector ![131072])⟩,
   ⟨2, exVector ![-32768, 196608], if last then some (exVector ![65536, -65536]) else none⟩]

/-- what the parameters are, in quanta -/
def Param.quanta (p : Param) : List Int := List.ofFn fun i => (p.tensor.value i).toInt

/-- C56: a step with learning rate 1/4: 1.5 - 0.5 and (-0.5 - 0.25, 3 + 0.25), up to a quantum -/
example : ((Sgd.mk (1 / 4) none).step exMachine start (exParams true)).2.1.map Param.quanta
    = [[65536 + 1], [-49152 + 1, 212992]] := by decide +kernel

/-- C56: without the second gradient only the first parameter is changed, and the step fails. -/
example : ((Sgd.mk (1 / 4) none).step exMachine start (exParams false)).2.1.map Param.quanta = [[65536 + 1], [-32768, 196608]] ∧
    (((Sgd.mk (1 / 4) none).step exMachine start (exParams false)).2.2.toOption) = none := by decide +kernel

/-- the hypothesis of `C56_sgd_step_partial` -/
example : ∀ p ∈ exParams true, p.Fits exMachine (1 / 4) := by
  have hS : exMachine.scale = 65536 := by decide
  intro p hp
  simp only [exParams, List.mem_cons, List.not_mem_nil, or_false, if_true] at hp
  rcases hp with rfl | rfl
  · refine ⟨⟨exPairSecret_wf _ _, rfl⟩, _, rfl, ⟨exPairSecret_wf _ _, rfl⟩, ?_⟩
    intro i
    rw [hS]
    have h1 : ∀ i, ((exVector ![98304]).value i).toInt = 98304 := by decide +kernel
    have h2 : ∀ i, ((exVector ![131072]).value i).toInt = 131072 := by decide +kernel
    dsimp only
    rw [h1, h2]
    norm_num [abs_of_pos]
  · refine ⟨⟨exPairSecret_wf _ _, rfl⟩, _, rfl, ⟨exPairSecret_wf _ _, rfl⟩, ?_⟩
    intro i
    rw [hS]
    have h1 : ∀ i, |((exVector ![-32768, 196608]).value i).toInt| ≤ 196608 := by decide +kernel
    have h2 : ∀ i, |((exVector ![65536, -65536]).value i).toInt| ≤ 65536 := by decide +kernel
    have h1' : |(((exVector ![-32768, 196608]).value i).toInt : ℚ)| ≤ 196608 := by exact_mod_cast h1 i
    have h2' : |(((exVector ![65536, -65536]).value i).toInt : ℚ)| ≤ 65536 := by exact_mod_cast h2 i
    dsimp only
    refine ⟨by linarith, ?_⟩
    norm_num [abs_of_pos]
    linarith

end SyMPC
