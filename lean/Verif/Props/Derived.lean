import Verif.Model.Derived
import Verif.Props.ShareOps
import Verif.Props.Fss

/-!
# C14, C39: subtraction from a public value, derived comparisons
-/

namespace SyMPC

open FixedPointEncoder (Val)

/-! ## C14 -/

/-- C14, two parties: `y - x` is within one quantum of the encoded `y` minus `x`, as long as the two products
`(x0 - y) * -scale` and `x1 * -scale` of the parties do not wrap around the ring when added. -/
theorem C14_rsub_two_partial (fl : ℚ → ℚ) (env : Env) (rnd : WrapRand) (x : MPCTensor I64) (y : Val) (hx : x.WF env)
    (hn : x.session.nrParties = 2) (S : Nat) (hS : S = x.session.config.encoder.scale) (h1 : 0 < S) (h2 : S < 2 ^ 63) :
    ∃ (x0 x1 z0 z1 : I64) (res : MPCTensor I64) (q : I64), x.shares.map (·.tensor) = [x0, x1] ∧
      z0 = (x0 - x.session.config.encoder.encode y) * BitVec.ofInt 64 (-S) ∧ z1 = x1 * BitVec.ofInt 64 (-S) ∧
      x.rsubPublic fl env rnd y = .ok res ∧ res.WF env ∧ res.session = x.session ∧ res.reconstruct = .ok q ∧
      q = floordiv z0 (BitVec.ofNat 64 S) + floordiv z1 (BitVec.ofNat 64 S) ∧
      (-2 ^ 63 ≤ z0.toInt + z1.toInt → z0.toInt + z1.toInt < 2 ^ 63 → ∀ v : Int,
        v = (x.session.config.encoder.encode y).toInt - (x0 + x1).toInt → -2 ^ 63 ≤ v * S → v * S < 2 ^ 63 →
        |q.toInt - v| ≤ 1) := by
  obtain ⟨s, shares⟩ := x
  dsimp only at hn hS ⊢
  have hS' : s.config.encoderBase ^ s.config.encoderPrecision = S := by rw [hS]; rfl
  have hlr : s.rankToUuid.length = 2 := by rw [hx.ready.ranks, hn]
  obtain ⟨u0, u1, hu⟩ : ∃ u0 u1, s.rankToUuid = [u0, u1] := by
    match h : s.rankToUuid, hlr with
    | [a, b], _ => exact ⟨a, b, rfl⟩
  have tags := hx.tags
  dsimp only at tags
  rw [hu] at tags
  obtain ⟨sa, sb, rfl⟩ : ∃ sa sb, shares = [sa, sb] := by
    have := congrArg List.length tags
    match shares, this with
    | [a, b], _ => exact ⟨a, b, rfl⟩
  simp only [List.map_cons, List.map_nil, List.cons.injEq, and_true] at tags
  obtain ⟨p0, e0, c0, r0⟩ := hx.ready.known u0 (by dsimp only; simp [hu])
  obtain ⟨p1, e1, c1, r1⟩ := hx.ready.known u1 (by dsimp only; simp [hu])
  have g0 : ∃ t, getTypeFromRing p0.ringSize = .ok t := by rw [r0]; exact hx.ready.ring
  have g1 : ∃ t, getTypeFromRing p1.ringSize = .ok t := by rw [r1]; exact hx.ready.ring
  have c0' : p0.config = s.config := c0
  have c1' : p1.config = s.config := c1
  have em : s.config.encoder.encode (Val.int (-1)) = BitVec.ofInt 64 (-S) := by
    rw [hS]
    simp [FixedPointEncoder.encode, FixedPointEncoder.encodeInt]
  generalize hz0 : (sa.tensor - s.config.encoder.encode y) * BitVec.ofInt 64 (-S) = z0
  generalize hz1 : sb.tensor * BitVec.ofInt 64 (-S) = z1
  have hwf : MPCTensor.WF env ⟨s, [ShareTensor.div (floordiv · (BitVec.ofInt 64 S)) ⟨z0, some u0, p0.config, p0.ringSize⟩,
      ShareTensor.div (floordiv · (BitVec.ofInt 64 S)) ⟨z1, some u1, p1.config, p1.ringSize⟩]⟩ :=
    ⟨hx.ready, by dsimp only; rw [hu]; rfl⟩
  refine ⟨sa.tensor, sb.tensor, z0, z1, _, _, rfl, hz0.symm, hz1.symm, ?_, hwf, rfl, WF.reconstruct hwf, ?_, ?_⟩
  · unfold MPCTensor.rsubPublic MPCTensor.applyPublicLin
    simp only [shareOp_pub env .sub sa y u0 p0 tags.1 e0 g0, ok_bind]
    rw [ofShares_ok _ _ hx.ready.ptrs (by simp), ok_bind]
    unfold MPCTensor.applyPublicMul
    simp only [List.mapM_cons, List.mapM_nil]
    rw [prod_pub env _ _ _ _ u0 p0 rfl e0 g0, prod_pub env _ _ _ _ u1 p1 tags.2 e1 g1]
    simp only [ok_bind, pure_eq_ok, LinOp.den, PubEnc.enc, c0', c1', em, hz0, hz1]
    rw [ofShares_ok _ _ hx.ready.ptrs (by simp), ok_bind]
    unfold publicDivide
    dsimp only
    rw [if_pos hn, ofShares_ok _ _ hx.ready.ptrs (by simp), hS']
    rfl
  · simp [ShareTensor.div]
  · intro k1 k2 v hv k3 k4
    simp only [List.map_cons, List.map_nil, List.sum_cons, List.sum_nil, add_zero, ShareTensor.div]
    have hz : z0 + z1 = BitVec.ofInt 64 (v * S) := by
      rw [← hz0, ← hz1, hv]
      apply BitVec.eq_of_toInt_eq
      have e : (sa.tensor - s.config.encoder.encode y) * BitVec.ofInt 64 (-S) + sb.tensor * BitVec.ofInt 64 (-S)
          = (s.config.encoder.encode y - (sa.tensor + sb.tensor)) * BitVec.ofInt 64 S := by
        rw [BitVec.ofInt_neg]
        ring
      rw [e]
      congr 1
      rw [BitVec.ofInt_mul, sub_eq_add_neg (BitVec.toInt _), BitVec.ofInt_add, BitVec.ofInt_neg, BitVec.ofInt_toInt,
        BitVec.ofInt_toInt, sub_eq_add_neg]
    have hzi : z0.toInt + z1.toInt = v * S := by
      have hc := toInt_add_cases z0 z1
      rw [if_neg (by omega), if_neg (by omega), hz, toInt_ofInt64 k3 k4] at hc
      omega
    rw [two_quotients z0 z1 S (by exact_mod_cast h1) (by exact_mod_cast h2) (Or.inr ⟨k1, k2⟩)]
    have := (tdiv_add z0.toInt z1.toInt S (by exact_mod_cast h1)).1
    rw [hzi, Int.mul_tdiv_cancel _ (by exact_mod_cast h1.ne')] at this
    exact this

/-- C14: `2 - 3.5 = -1.5` in a two-party session, one quantum off. -/
example :
    (match (exPairSecret (BitVec.ofNat 64 (7 * 2 ^ 15 + 1000003)) (BitVec.ofInt 64 (-1000003))).rsubPublic f32 exPairEnv
        ⟨0, fun _ => 0, fun _ => 0⟩ (.int 2) with
      | .ok r => r.reconstruct
      | .error e => .error e) = .ok (BitVec.ofInt 64 (-3 * 2 ^ 15)) := by decide +kernel

/-! ## C39 -/

/-- the encoding of the truth value of `p` -/
def bitOf (c : Config) (p : Prop) [Decidable p] : I64 := c.encoder.encode (.long (if p then 1 else 0))

/-- The protocol compares secrets of session `s` correctly where `D` holds of the two secrets (in quanta). -/
structure CmpProtocol.Correct (P : CmpProtocol) (env : Env) (s : Session) (D : Int → Int → Prop) : Prop where
  le : ∀ x y : MPCTensor I64, x.WF env → y.WF env → x.session = s → y.session = s → D x.value.toInt y.value.toInt →
    ∃ z, P.le x y = .ok z ∧ z.WF env ∧ z.session = s ∧ z.value = bitOf s.config (x.value.toInt ≤ y.value.toInt)
  eq : ∀ x y : MPCTensor I64, x.WF env → y.WF env → x.session = s → y.session = s → D x.value.toInt y.value.toInt →
    ∃ z, P.eq x y = .ok z ∧ z.WF env ∧ z.session = s ∧ z.value = bitOf s.config (x.value.toInt = y.value.toInt)

/-- The number added by `lt` and `gt` is one quantum, for an encoder with base 2. -/
theorem quantum_base2 (c : Config) (hb : c.encoderBase = 2) (hp : c.encoderPrecision < 63) :
    PubEnc.enc c (quantum c) = (1 : I64) := by
  obtain ⟨b, p⟩ := c
  dsimp only at hb hp
  subst hb
  by_cases h0 : p = 0
  · subst h0
    decide
  · have hs : (Config.encoder ⟨2, p⟩).scale = 2 ^ p := rfl
    have h2 : 2 ≤ 2 ^ p := by
      calc 2 = 2 ^ 1 := rfl
        _ ≤ 2 ^ p := Nat.pow_le_pow_right (by norm_num) (by omega)
    have h63 : 2 ^ p < 2 ^ 63 := Nat.pow_lt_pow_right (by norm_num) hp
    obtain ⟨D, R, e1, e2, e3, e4⟩ := decodeCoreFl_eq f32 (Config.encoder ⟨2, p⟩) 1 (by rw [hs]; omega) (by rw [hs]; omega)
      (Or.inl (by rw [hs]; omega))
    rw [hs] at e1 e2 e4
    have ht : (1 : I64).toInt = 1 := by decide
    rw [ht] at e2
    have hD : D = 0 ∧ R = 1 := by
      have hpz : (2 : Int) ≤ ((2 ^ p : Nat) : Int) := by exact_mod_cast h2
      have : D = 0 := by
        by_contra hne
        rcases lt_or_gt_of_ne hne with h | h <;> nlinarith
      subst this
      exact ⟨rfl, by omega⟩
    obtain ⟨rfl, rfl⟩ := hD
    have f1 : f32 ((2 ^ p : Nat) : ℚ) = (2 : ℚ) ^ (p : Int) := by
      have := f32_exact 1 p (by norm_num)
      simpa using this
    have f2 : f32 ((1 : Int) : ℚ) = 1 := by
      have := f32_exact 1 0 (by norm_num)
      simpa using this
    have f3 : f32 (1 / (2 : ℚ) ^ (p : Int)) = 1 / (2 : ℚ) ^ (p : Int) := by
      have := f32_exact 1 (-p) (by norm_num)
      rw [zpow_neg] at this
      simpa using this
    have f0 : f32 ((0 : Int) : ℚ) = 0 := by simp [f32_zero]
    have hq : (Config.encoder ⟨2, p⟩).decodeCoreFl f32 1 = 1 / (2 : ℚ) ^ (p : Int) := by
      rw [e1, f0, f1, f2, zero_add, f3, f3]
    unfold quantum
    simp only [h0, if_false, PubEnc.enc, hq, hs, f1]
    have : (1 : ℚ) / 2 ^ (p : Int) * 2 ^ (p : Int) = ((1 : Int) : ℚ) := by
      field_simp
      simp
    rw [this, f2]
    decide

/-- The number added by `lt` and `gt` is one quantum, for the decimal encoders up to 16 digits. -/
theorem quantum_base10 (p : Nat) (hp : p ≤ 16) : PubEnc.enc ⟨10, p⟩ (quantum ⟨10, p⟩) = (1 : I64) := by
  interval_cases p <;> decide +kernel

/-- C39: `ge` is `≤` with the operands exchanged. -/
theorem C39_ge (P : CmpProtocol) (env : Env) (s : Session) (D : Int → Int → Prop) (hP : P.Correct env s D)
    (x y : MPCTensor I64) (hx : x.WF env) (hy : y.WF env) (sx : x.session = s) (sy : y.session = s)
    (hD : D y.value.toInt x.value.toInt) :
    ∃ z, x.ge P y = .ok z ∧ z.WF env ∧ z.reconstruct = .ok (bitOf s.config (x.value.toInt ≥ y.value.toInt)) := by
  obtain ⟨z, h1, h2, h3, h4⟩ := hP.le y x hy hx sy sx hD
  exact ⟨z, h1, h2, by rw [WF.reconstruct h2]; exact congrArg Except.ok h4⟩

/-- C39: `lt` is the strict order on quanta, if `decode(1)` encodes to one quantum and the secret is not the largest
number of the ring. -/
theorem C39_lt (P : CmpProtocol) (env : Env) (s : Session) (D : Int → Int → Prop) (hP : P.Correct env s D)
    (hq : PubEnc.enc s.config (quantum s.config) = (1 : I64))
    (x y : MPCTensor I64) (hx : x.WF env) (hy : y.WF env) (sx : x.session = s) (sy : y.session = s)
    (hmax : x.value.toInt < 2 ^ 63 - 1) (hD : D (x.value.toInt + 1) y.value.toInt) :
    ∃ z, x.lt P env y = .ok z ∧ z.WF env ∧ z.reconstruct = .ok (bitOf s.config (x.value.toInt < y.value.toInt)) := by
  obtain ⟨w, e1, e2, e3, -, e5⟩ := pub_ok env .add x (quantum x.session.config) hx _ (WF.reconstruct hx)
  have hw : w.value = x.value + 1 := by
    rw [WF.reconstruct e3] at e5
    have := Except.ok.inj e5
    rw [sx, hq] at this
    exact this
  have hwi : w.value.toInt = x.value.toInt + 1 := by
    rw [hw, BitVec.toInt_add]
    have := toInt_bounds x.value
    have h1 : (1 : I64).toInt = 1 := by decide
    rw [h1, bmod64_eq (by omega) (by omega)]
  obtain ⟨z, h1, h2, h3, h4⟩ := hP.le w y e3 hy (e2.trans sx) sy (by rw [hwi]; exact hD)
  refine ⟨z, ?_, h2, ?_⟩
  · unfold MPCTensor.lt
    rw [e1, ok_bind, h1]
  · rw [WF.reconstruct h2]
    refine congrArg Except.ok (h4.trans ?_)
    unfold bitOf
    simp only [hwi, Int.add_one_le_iff]

/-- C39: `gt`. -/
theorem C39_gt (P : CmpProtocol) (env : Env) (s : Session) (D : Int → Int → Prop) (hP : P.Correct env s D)
    (hq : PubEnc.enc s.config (quantum s.config) = (1 : I64))
    (x y : MPCTensor I64) (hx : x.WF env) (hy : y.WF env) (sx : x.session = s) (sy : y.session = s)
    (hmax : y.value.toInt < 2 ^ 63 - 1) (hD : D (y.value.toInt + 1) x.value.toInt) :
    ∃ z, x.gt P env y = .ok z ∧ z.WF env ∧ z.reconstruct = .ok (bitOf s.config (x.value.toInt > y.value.toInt)) := by
  have h : x.gt P env y = y.lt P env x := by
    unfold MPCTensor.gt MPCTensor.lt
    rw [sx, sy]
  rw [h]
  exact C39_lt P env s D hP hq y x hy hx sy sx hmax hD

/-- C39: exactly one of `x < y`, `x = y`, `x > y` is 1, the others are 0, and `≤` and `>` are complementary. -/
theorem C39_trichotomy (P : CmpProtocol) (env : Env) (s : Session) (D : Int → Int → Prop) (hP : P.Correct env s D)
    (hq : PubEnc.enc s.config (quantum s.config) = (1 : I64))
    (x y : MPCTensor I64) (hx : x.WF env) (hy : y.WF env) (sx : x.session = s) (sy : y.session = s)
    (hxm : x.value.toInt < 2 ^ 63 - 1) (hym : y.value.toInt < 2 ^ 63 - 1) (hD : D x.value.toInt y.value.toInt)
    (hD1 : D (x.value.toInt + 1) y.value.toInt) (hD2 : D (y.value.toInt + 1) x.value.toInt) :
    ∃ l e g le : MPCTensor I64, ∃ vl ve vg vle : I64, x.lt P env y = .ok l ∧ P.eq x y = .ok e ∧ x.gt P env y = .ok g ∧
      P.le x y = .ok le ∧ l.reconstruct = .ok vl ∧ e.reconstruct = .ok ve ∧ g.reconstruct = .ok vg ∧
      le.reconstruct = .ok vle ∧
      ([vl, ve, vg] = [s.config.encoder.encode (.long 1), 0, 0] ∨ [vl, ve, vg] = [0, s.config.encoder.encode (.long 1), 0] ∨
        [vl, ve, vg] = [0, 0, s.config.encoder.encode (.long 1)]) ∧
      vle + vg = s.config.encoder.encode (.long 1) := by
  obtain ⟨l, l1, _, l3⟩ := C39_lt P env s D hP hq x y hx hy sx sy hxm hD1
  obtain ⟨g, g1, _, g3⟩ := C39_gt P env s D hP hq x y hx hy sx sy hym hD2
  obtain ⟨e, e1, e2, _, e4⟩ := hP.eq x y hx hy sx sy hD
  obtain ⟨k, k1, k2, _, k4⟩ := hP.le x y hx hy sx sy hD
  have b0 : s.config.encoder.encode (.long 0) = 0 := by
    simp [FixedPointEncoder.encode, FixedPointEncoder.encodeInt]
  have b0' : s.config.encoder.encode (.long 0#64) = 0#64 := b0
  refine ⟨l, e, g, k, _, _, _, _, l1, e1, g1, k1, l3, WF.reconstruct e2, g3, WF.reconstruct k2, ?_, ?_⟩
  · have e4' : (e.shares.map (·.tensor)).sum = _ := e4
    rw [e4']
    unfold bitOf
    rcases lt_trichotomy x.value.toInt y.value.toInt with h | h | h
    · exact Or.inl (by simp [h, h.ne, not_lt_of_gt h, b0'])
    · exact Or.inr (Or.inl (by simp [h, b0']))
    · exact Or.inr (Or.inr (by simp [h, h.ne', not_lt_of_gt h, b0']))
  · have k4' : (k.shares.map (·.tensor)).sum = _ := k4
    rw [k4']
    unfold bitOf
    rcases le_or_gt x.value.toInt y.value.toInt with h | h
    · simp [h, not_lt_of_ge h, b0']
    · simp [h, not_le_of_gt h, b0']

/-- C39, negation: with base 3 and precision 5 the float32 quantum encodes to zero, so `x < x` is true for every
secret, whatever correct protocol compares them. -/
theorem C39_lt_wrong_base3 (P : CmpProtocol) (env : Env) (s : Session) (D : Int → Int → Prop) (hP : P.Correct env s D)
    (hc : s.config = ⟨3, 5⟩) (x : MPCTensor I64) (hx : x.WF env) (sx : x.session = s) (hD : D x.value.toInt x.value.toInt) :
    ∃ z, x.lt P env x = .ok z ∧ z.reconstruct = .ok (s.config.encoder.encode (.long 1)) := by
  have hq : PubEnc.enc s.config (quantum s.config) = (0 : I64) := by
    rw [hc]
    decide +kernel
  obtain ⟨w, e1, e2, e3, -, e5⟩ := pub_ok env .add x (quantum x.session.config) hx _ (WF.reconstruct hx)
  have hw : w.value = x.value := by
    rw [WF.reconstruct e3] at e5
    have := Except.ok.inj e5
    rw [sx, hq] at this
    exact this.trans (add_zero _)
  obtain ⟨z, h1, h2, h3, h4⟩ := hP.le w x e3 hx (e2.trans sx) sx (by rw [hw]; exact hD)
  refine ⟨z, ?_, ?_⟩
  · unfold MPCTensor.lt
    rw [e1, ok_bind, h1]
  · rw [WF.reconstruct h2]
    refine congrArg Except.ok (h4.trans ?_)
    unfold bitOf
    simp [hw]

/-- C39, two parties: `ne` is within one quantum of `1 - eq`, if the parties' products with the scale do not wrap. -/
theorem C39_ne_partial (P : CmpProtocol) (fl : ℚ → ℚ) (env : Env) (rnd : WrapRand) (s : Session) (D : Int → Int → Prop)
    (hP : P.Correct env s D) (hn : s.nrParties = 2) (S : Nat) (hS : S = s.config.encoder.scale) (h1 : 0 < S)
    (h2 : S < 2 ^ 31) (x y : MPCTensor I64) (hx : x.WF env) (hy : y.WF env) (sx : x.session = s) (sy : y.session = s)
    (hD : D x.value.toInt y.value.toInt) :
    ∃ (e z : MPCTensor I64) (e0 e1 q : I64), P.eq x y = .ok e ∧ e.shares.map (·.tensor) = [e0, e1] ∧
      x.ne P fl env rnd y = .ok z ∧ z.reconstruct = .ok q ∧
      ∀ z0 z1 : I64, z0 = (e0 - BitVec.ofNat 64 S) * BitVec.ofInt 64 (-S) → z1 = e1 * BitVec.ofInt 64 (-S) →
        -2 ^ 63 ≤ z0.toInt + z1.toInt → z0.toInt + z1.toInt < 2 ^ 63 →
        |q.toInt - (if x.value.toInt = y.value.toInt then 0 else (S : Int))| ≤ 1 := by
  obtain ⟨e, a1, a2, a3, a4⟩ := hP.eq x y hx hy sx sy hD
  obtain ⟨x0, x1, z0, z1, res, q, b1, b2, b3, b4, b5, b6, b7, b8, b9⟩ :=
    C14_rsub_two_partial fl env rnd e (.int 1) a2 (by rw [a3]; exact hn) S (by rw [a3]; exact hS) h1 (by omega)
  have hone : s.config.encoder.encode (.int 1) = BitVec.ofNat 64 S := by
    rw [hS]
    simp [FixedPointEncoder.encode, FixedPointEncoder.encodeInt]
  have hval : x0 + x1 = bitOf s.config (x.value.toInt = y.value.toInt) := by
    rw [← a4]
    show _ = (e.shares.map (·.tensor)).sum
    rw [b1]
    simp
  refine ⟨e, res, x0, x1, q, a1, b1, ?_, b7, ?_⟩
  · unfold MPCTensor.ne
    rw [a1, ok_bind, b4]
  · intro z0' z1' hz0 hz1 k1 k2
    have c0 : z0 = z0' := by rw [b2, a3, hone, hz0]
    have c1 : z1 = z1' := b3.trans hz1.symm
    rw [← c0, ← c1] at k1 k2
    have hSS : (S : Int) * S < 2 ^ 62 := by
      have : (S : Int) < 2 ^ 31 := by exact_mod_cast h2
      nlinarith
    have hSp : (0 : Int) < S := by exact_mod_cast h1
    have t1 : (BitVec.ofNat 64 S : I64).toInt = S := toInt_ofNat64 (by omega)
    have := b9 k1 k2 (if x.value.toInt = y.value.toInt then 0 else S) ?_ ?_ ?_
    · exact this
    · rw [a3, hone, hval, t1]
      unfold bitOf
      split
      · have : s.config.encoder.encode (.long 1) = BitVec.ofNat 64 S := by
          rw [hS]
          simp [FixedPointEncoder.encode, FixedPointEncoder.encodeInt]
        rw [this, t1]
        omega
      · have : s.config.encoder.encode (.long 0) = 0 := by
          simp [FixedPointEncoder.encode, FixedPointEncoder.encodeInt]
        rw [this]
        simp
    · split <;> nlinarith
    · split <;> nlinarith

/-- `(o * S) * -S` divided by `S`, without wrapping. -/
theorem floordiv_scaled (o : Int) (S : Nat) (h1 : 0 < S) (h2 : S < 2 ^ 63) (hl : -2 ^ 63 < o * S * S) (hu : o * S * S < 2 ^ 63) :
    floordiv (BitVec.ofInt 64 (o * S) * BitVec.ofInt 64 (-S)) (BitVec.ofNat 64 S) = BitVec.ofInt 64 (-(o * S)) := by
  have hSp : (0 : Int) < S := by exact_mod_cast h1
  have e : BitVec.ofInt 64 (o * S) * BitVec.ofInt 64 (-S) = BitVec.ofInt 64 (-(o * S) * S) := by
    rw [← BitVec.ofInt_mul]
    congr 1
    ring
  rw [e]
  have t : (BitVec.ofInt 64 (-(o * S) * S) : I64).toInt = -(o * S) * S := toInt_ofInt64 (by nlinarith) (by nlinarith)
  have hd := toInt_floordiv (BitVec.ofInt 64 (-(o * S) * S)) S (by exact_mod_cast h1) (by exact_mod_cast h2)
  rw [t, Int.mul_tdiv_cancel _ hSp.ne'] at hd
  rw [← BitVec.ofInt_toInt (x := floordiv _ _)]
  exact congrArg _ hd

/-- C39, two parties: if the parties' shares of `eq` are `o0 * scale` and `o1 * scale` with `|o| * scale² < 2^63` (which is
what function secret sharing delivers: 32-bit outputs times the scale `2^16`), `ne` is exactly the encoded `x ≠ y`. -/
theorem C39_ne_exact (P : CmpProtocol) (fl : ℚ → ℚ) (env : Env) (rnd : WrapRand) (s : Session) (D : Int → Int → Prop)
    (hP : P.Correct env s D) (hn : s.nrParties = 2) (S : Nat) (hS : S = s.config.encoder.scale) (h1 : 0 < S)
    (h2 : S < 2 ^ 63) (x y : MPCTensor I64) (hx : x.WF env) (hy : y.WF env) (sx : x.session = s) (sy : y.session = s)
    (hD : D x.value.toInt y.value.toInt) (e : MPCTensor I64) (he : P.eq x y = .ok e) (o0 o1 : Int)
    (hsh : e.shares.map (·.tensor) = [BitVec.ofInt 64 (o0 * S), BitVec.ofInt 64 (o1 * S)])
    (k0 : |o0 - 1| * S * S < 2 ^ 63) (k1 : |o1| * S * S < 2 ^ 63) :
    ∃ z : MPCTensor I64, x.ne P fl env rnd y = .ok z ∧ z.WF env ∧
      z.reconstruct = .ok (bitOf s.config (x.value.toInt ≠ y.value.toInt)) := by
  obtain ⟨e', a1, a2, a3, a4⟩ := hP.eq x y hx hy sx sy hD
  rw [he] at a1
  obtain rfl := Except.ok.inj a1
  obtain ⟨x0, x1, z0, z1, res, q, b1, b2, b3, b4, b5, b6, b7, b8, -⟩ :=
    C14_rsub_two_partial fl env rnd e (.int 1) a2 (by rw [a3]; exact hn) S (by rw [a3]; exact hS) h1 h2
  rw [hsh] at b1
  obtain ⟨rfl, rfl⟩ : BitVec.ofInt 64 (o0 * S) = x0 ∧ BitVec.ofInt 64 (o1 * S) = x1 := by simpa using b1
  have one : ∀ v, v = Val.int 1 ∨ v = Val.long 1 → s.config.encoder.encode v = BitVec.ofInt 64 S := by
    rintro v (rfl | rfl) <;> rw [hS] <;> simp [FixedPointEncoder.encode, FixedPointEncoder.encodeInt]
  have zero : s.config.encoder.encode (.long 0) = 0 := by
    simp [FixedPointEncoder.encode, FixedPointEncoder.encodeInt]
  have hsum : BitVec.ofInt 64 (o0 * S) + BitVec.ofInt 64 (o1 * S) = bitOf s.config (x.value.toInt = y.value.toInt) := by
    rw [← a4]
    show _ = (e.shares.map (·.tensor)).sum
    rw [hsh]
    simp
  have hSp : (0 : Int) < S := by exact_mod_cast h1
  have bnd : ∀ o : Int, |o| * S * S < 2 ^ 63 → -2 ^ 63 < o * S * S ∧ o * S * S < 2 ^ 63 := by
    intro o ho
    have : |o * S * S| < 2 ^ 63 := by rwa [abs_mul, abs_mul, abs_of_pos hSp]
    exact abs_lt.mp this
  have q0 : floordiv z0 (BitVec.ofNat 64 S) = BitVec.ofInt 64 (-((o0 - 1) * S)) := by
    rw [b2, a3, one _ (Or.inl rfl), ← floordiv_scaled (o0 - 1) S h1 h2 (bnd _ k0).1 (bnd _ k0).2]
    congr 2
    rw [sub_mul, one_mul, sub_eq_add_neg (o0 * (S : Int)), BitVec.ofInt_add, BitVec.ofInt_neg, sub_eq_add_neg]
  have q1 : floordiv z1 (BitVec.ofNat 64 S) = BitVec.ofInt 64 (-(o1 * S)) := by
    rw [b3, floordiv_scaled o1 S h1 h2 (bnd _ k1).1 (bnd _ k1).2]
  refine ⟨res, ?_, b5, ?_⟩
  · unfold MPCTensor.ne
    rw [he, ok_bind, b4]
  · rw [b7, b8, q0, q1]
    refine congrArg Except.ok ?_
    have : BitVec.ofInt 64 (-((o0 - 1) * S)) + BitVec.ofInt 64 (-(o1 * S))
        = BitVec.ofInt 64 S - (BitVec.ofInt 64 (o0 * S) + BitVec.ofInt 64 (o1 * S)) := by
      rw [sub_mul, one_mul, neg_sub, sub_eq_add_neg (S : Int), BitVec.ofInt_add, BitVec.ofInt_neg, BitVec.ofInt_neg]
      ring
    rw [this, hsum]
    unfold bitOf
    by_cases h : x.value.toInt = y.value.toInt
    · rw [if_pos h, if_neg (by simpa using h), one _ (Or.inr rfl), zero, sub_self]
    · rw [if_neg h, if_pos (by simpa using h), one _ (Or.inr rfl), zero, sub_zero]

/-- An ideal comparison: the first party holds the bit, the others zero. -/
def exIdealBit (x : MPCTensor I64) (b : I64) : MPCTensor I64 :=
  ⟨x.session, match x.shares with
    | [] => []
    | s :: ss => { s with tensor := b } :: ss.map ({ · with tensor := 0 })⟩

theorem exIdealBit_spec (env : Env) (x : MPCTensor I64) (hx : x.WF env) (b : I64) :
    (exIdealBit x b).WF env ∧ (exIdealBit x b).value = b := by
  obtain ⟨s, shares⟩ := x
  have hne := WF.nonempty hx
  cases shares with
  | nil => exact absurd rfl hne
  | cons s0 ss =>
    refine ⟨⟨hx.ready, ?_⟩, ?_⟩
    · have := hx.tags
      simpa [exIdealBit, Function.comp_def] using this
    · have h0 : ((ss.map fun t => ({ t with tensor := 0 } : ShareTensor I64)).map (·.tensor)).sum = 0 := by
        simp [Function.comp_def]
      show ((exIdealBit _ b).shares.map (·.tensor)).sum = b
      simp only [exIdealBit, List.map_cons, List.sum_cons, h0, add_zero]

/-- A comparison protocol that is correct on all secrets. -/
def exIdeal : CmpProtocol where
  le x y := .ok (exIdealBit x (bitOf x.session.config (x.value.toInt ≤ y.value.toInt)))
  eq x y := .ok (exIdealBit x (bitOf x.session.config (x.value.toInt = y.value.toInt)))

theorem exIdeal_correct (env : Env) (s : Session) : exIdeal.Correct env s fun _ _ => True where
  le x y hx _ sx _ _ := ⟨_, rfl, (exIdealBit_spec env x hx _).1, sx, by rw [(exIdealBit_spec env x hx _).2, sx]⟩
  eq x y hx _ sx _ _ := ⟨_, rfl, (exIdealBit_spec env x hx _).1, sx, by rw [(exIdealBit_spec env x hx _).2, sx]⟩

/-- C39: the theorems apply to `-3 < 5` in a two-party session with the default encoder. -/
example : ∃ z, (exPairSecret 7 (-10)).lt exIdeal exPairEnv (exPairSecret 12 (-7)) = .ok z ∧
    z.reconstruct = .ok (BitVec.ofNat 64 65536) := by
  obtain ⟨z, h1, _, h3⟩ := C39_lt exIdeal exPairEnv exPair _ (exIdeal_correct _ _) (quantum_base2 _ rfl (by decide))
    (exPairSecret 7 (-10)) (exPairSecret 12 (-7)) (exPairSecret_wf _ _) (exPairSecret_wf _ _) rfl rfl (by decide) trivial
  exact ⟨z, h1, h3.trans (by decide)⟩

/-- C39: `ne` of the secrets -3 and 5. -/
example (a b : MPCTensor I64) (ha : a = exPairSecret 7 (-10)) (hb : b = exPairSecret 12 (-7)) :
    ∃ z, a.ne exIdeal f32 exPairEnv ⟨0, fun _ => 0, fun _ => 0⟩ b = .ok z ∧
    z.WF exPairEnv ∧ z.reconstruct = .ok (bitOf exPair.config (a.value.toInt ≠ b.value.toInt)) :=
  C39_ne_exact exIdeal f32 exPairEnv _ exPair _ (exIdeal_correct _ _) rfl 65536 rfl (by decide) (by decide)
    a b (ha ▸ exPairSecret_wf _ _) (hb ▸ exPairSecret_wf _ _) (ha ▸ rfl) (hb ▸ rfl) trivial _ rfl 0 0
    (by rw [ha, hb]; decide) (by decide) (by decide)

end SyMPC
