import Verif.Lemmas.Wraps
import Verif.Props.Float32
import Verif.Props.Spdz

/-!
# C24, C25, C26, C27: truncation and division by a public integer
-/

namespace SyMPC

/-! ## C26 -/

/-- C26 (partial): unless `-2^63` is added to `-2^63`, `count_wraps` is the number of times the integer sum of the shares
leaves the ring.  Missing: that pair, see `C26_min_pair_missed`. -/
theorem C26_count_wraps_partial (l : List I64) (hne : l ≠ []) (hlen : l.length < 2 ^ 63) (h : NoMinPair l) :
    ∃ w : I64, countWraps l = .ok w ∧ (l.map BitVec.toInt).sum = l.sum.toInt + w.toInt * 2 ^ 64 := by
  obtain ⟨w, h1, h2, h3⟩ := countWraps_exact l hne h
  refine ⟨_, h1, ?_⟩
  rw [abs_lt] at h3
  have : (l.length : Int) < 2 ^ 63 := by exact_mod_cast hlen
  rw [toInt_ofInt64 (by omega) (by omega)]
  exact h2

theorem noMinPair_of_notMem {l : List I64} (h : BitVec.intMin 64 ∉ l) : NoMinPair l := by
  rintro l₁ m l₂ rfl _ ⟨_, rfl⟩
  simp at h

/-- C26 (partial): in particular it is exact when no share is `-2^63`. -/
theorem C26_count_wraps_no_min_partial (l : List I64) (hne : l ≠ []) (hlen : l.length < 2 ^ 63) (h : BitVec.intMin 64 ∉ l) :
    ∃ w : I64, countWraps l = .ok w ∧ (l.map BitVec.toInt).sum = l.sum.toInt + w.toInt * 2 ^ 64 := by
  exact C26_count_wraps_partial l hne hlen (noMinPair_of_notMem h)

example : countWraps [BitVec.ofInt 64 (2 ^ 63 - 1), 5, BitVec.ofInt 64 (-2 ^ 63 + 1), BitVec.ofInt 64 (-9)] = .ok 0 := by
  decide +kernel

example : countWraps [BitVec.ofInt 64 (2 ^ 63 - 1), BitVec.ofInt 64 (2 ^ 63 - 1), 3, 4] = .ok 1 := by decide +kernel

/-- C26 fails for two shares `-2^63`: their sum wraps once and none is counted. -/
theorem C26_min_pair_missed :
    countWraps [BitVec.intMin 64, BitVec.intMin 64] = .ok 0 ∧
    (([BitVec.intMin 64, BitVec.intMin 64] : List I64).map BitVec.toInt).sum
      = ([BitVec.intMin 64, BitVec.intMin 64] : List I64).sum.toInt + (-1) * 2 ^ 64 := by
  decide +kernel

/-- C26, everything that can happen: the count is too large by the number of times `-2^63` is added to `-2^63`. -/
theorem C26_count_wraps_error (a : I64) (l : List I64) :
    ∃ w : Int, countWraps (a :: l) = .ok (BitVec.ofInt 64 w) ∧
      ((a :: l).map BitVec.toInt).sum = (a :: l).sum.toInt + (w - minPairs a l) * 2 ^ 64 := by
  obtain ⟨w, h1, h2, _⟩ := countWrapsFrom_spec l a 0
  exact ⟨w, by rw [countWraps, h1, zero_add], by simpa using h2⟩

/-! ## C24 -/

/-- the quotients of two integers add up to the quotient of the sum, up to one -/
theorem tdiv_add (a b d : Int) (hd : 0 < d) : |a.tdiv d + b.tdiv d - (a + b).tdiv d| ≤ 1 ∧
    |(a.tdiv d + b.tdiv d) * d - (a + b)| < 2 * d := by
  obtain ⟨ra, ha, ha1, ha2⟩ := tdiv_rem a d hd
  obtain ⟨rb, hb, hb1, hb2⟩ := tdiv_rem b d hd
  obtain ⟨rc, hc, hc1, hc2⟩ := tdiv_rem (a + b) d hd
  generalize a.tdiv d = qa at *
  generalize b.tdiv d = qb at *
  generalize (a + b).tdiv d = qc at *
  have h1 : d * (qa + qb - qc) = rc - ra - rb := by linear_combination hc - ha - hb
  have h2 : |rc - ra - rb| < 2 * d ∧ |ra + rb| < 2 * d := by
    rw [abs_lt, abs_lt]
    clear h1 ha hb hc
    omega
  constructor
  · rw [← h1, abs_mul, abs_of_pos hd, mul_comm] at h2
    have := lt_of_mul_lt_mul_right h2.1 hd.le
    omega
  · have : (qa + qb) * d - (a + b) = -(ra + rb) := by linear_combination -ha - hb
    rw [this, abs_neg]
    exact h2.2

theorem tdiv_half (a d : Int) (h1 : 0 < d) (ba : -2 ^ 63 ≤ a ∧ a < 2 ^ 63) (hd : 2 ≤ d) :
    -2 ^ 62 ≤ a.tdiv d ∧ a.tdiv d < 2 ^ 62 := by
  obtain ⟨r, h, ha1, ha2⟩ := tdiv_rem a d h1
  generalize a.tdiv d = q at *
  rcases le_total 0 a with h0 | h0
  · have := ha1 h0
    constructor <;> by_contra hc <;> nlinarith
  · have := ha2 h0
    constructor <;> by_contra hc <;> nlinarith

/-- the sum of two truncated shares, read as an integer -/
theorem two_quotients (a b : I64) (d : Int) (h1 : 0 < d) (h2 : d < 2 ^ 63)
    (h : 2 ≤ d ∨ (-2 ^ 63 ≤ a.toInt + b.toInt ∧ a.toInt + b.toInt < 2 ^ 63)) :
    (floordiv a (BitVec.ofInt 64 d) + floordiv b (BitVec.ofInt 64 d)).toInt = a.toInt.tdiv d + b.toInt.tdiv d := by
  rw [BitVec.toInt_add, toInt_floordiv a d h1 h2, toInt_floordiv b d h1 h2]
  have ba := toInt_bounds a
  have bb := toInt_bounds b
  have la := tdiv_half a.toInt d h1 ba
  have lb := tdiv_half b.toInt d h1 bb
  apply bmod64_eq
  all_goals
    by_cases hd : d = 1
    · subst hd
      simp only [Int.tdiv_one]
      omega
    · have := la (by omega)
      have := lb (by omega)
      omega

/-- C24: dividing a two-party sharing by a positive integer.  `a`, `b` are the two shares.  If their integer sum does not
leave the ring, the result is within one of the truncated quotient of the secret (and less than two quanta from the exact
quotient); if it does, the result is that of the secret plus or minus `2^64`. -/
theorem C24_two_party_division (fl : ℚ → ℚ) (env : Env) (rnd : WrapRand) (x : MPCTensor I64) (hx : x.WF env)
    (hn : x.session.nrParties = 2) (d : Int) (h1 : 0 < d) (h2 : d < 2 ^ 63) :
    ∃ (a b : I64) (res : MPCTensor I64) (q : I64), x.shares.map (·.tensor) = [a, b] ∧ x.reconstruct = .ok (a + b) ∧
      publicDivide fl env rnd x d = .ok (res, x) ∧ res.WF env ∧ res.session = x.session ∧ res.reconstruct = .ok q ∧
      (-2 ^ 63 ≤ a.toInt + b.toInt → a.toInt + b.toInt < 2 ^ 63 →
        |q.toInt - (a + b).toInt.tdiv d| ≤ 1 ∧ |q.toInt * d - (a + b).toInt| < 2 * d) ∧
      (2 ≤ d → 2 ^ 63 ≤ a.toInt + b.toInt → |q.toInt * d - ((a + b).toInt + 2 ^ 64)| < 2 * d) ∧
      (2 ≤ d → a.toInt + b.toInt < -2 ^ 63 → |q.toInt * d - ((a + b).toInt - 2 ^ 64)| < 2 * d) := by
  have hlx : x.shares.length = 2 := by
    have := congrArg List.length hx.tags
    rw [← hn, ← hx.ready.ranks]
    simpa using this
  obtain ⟨s, shares⟩ := x
  obtain ⟨sa, sb, rfl⟩ : ∃ sa sb, shares = [sa, sb] := by
    match shares, hlx with
    | [sa, sb], _ => exact ⟨sa, sb, rfl⟩
  have hwf : MPCTensor.WF env ⟨s, [ShareTensor.div (floordiv · (BitVec.ofInt 64 d)) sa,
      ShareTensor.div (floordiv · (BitVec.ofInt 64 d)) sb]⟩ := ⟨hx.ready, hx.tags⟩
  have hq := fun h => two_quotients sa.tensor sb.tensor d h1 h2 h
  have hc := toInt_add_cases sa.tensor sb.tensor
  have hd := tdiv_add sa.tensor.toInt sb.tensor.toInt d h1
  refine ⟨sa.tensor, sb.tensor, _, _, rfl, ?_, ?_, hwf, rfl, WF.reconstruct hwf, ?_, ?_, ?_⟩
  · rw [WF.reconstruct hx]
    simp
  · unfold publicDivide
    dsimp only at hn ⊢
    rw [if_pos hn, ofShares_ok _ _ hx.ready.ptrs (by simp)]
    rfl
  all_goals simp only [List.map_cons, List.map_nil, List.sum_cons, List.sum_nil, add_zero, ShareTensor.div]
  · intro g1 g2
    rw [hq (Or.inr ⟨g1, g2⟩), hc, if_neg (by omega), if_neg (by omega), mul_zero, sub_zero]
    exact hd
  · intro g g1
    rw [hq (Or.inl g), hc, if_pos (by omega)]
    convert hd.2 using 2
    ring
  · intro g g1
    rw [hq (Or.inl g), hc, if_neg (by omega), if_pos (by omega)]
    convert hd.2 using 2
    ring

/-! ## C25 -/

section
variable {K Kw : Type} [DecidableEq K] {A B : K → Type} {o : K → Type}
  [∀ k, AddCommGroup (A k)] [∀ k, AddCommGroup (B k)]

/-- `res_share.tensor //= scale` for every element of a tensor, `spdz.py:171-176` -/
def truncTensor {ι : Type} (c : Config) (z : ι → I64) : ι → I64 :=
  fun j => floordiv (z j) (BitVec.ofNat 64 (c.encoderBase ^ c.encoderPrecision))

/-- What dividing two shares `z0`, `z1` of a number `p` by `S` gives: if the shares do not wrap around the ring, `q` is less
than two quanta from the quotient; if they do, it is the quotient of `p` plus or minus `2^64` (nothing can be lost for
`S = 1`). -/
def TruncatedProduct (z0 z1 q : I64) (p S : Int) : Prop :=
  (-2 ^ 63 ≤ z0.toInt + z1.toInt → z0.toInt + z1.toInt < 2 ^ 63 → |q.toInt * S - p| < 2 * S) ∧
  (2 ≤ S → 2 ^ 63 ≤ z0.toInt + z1.toInt → |q.toInt * S - (p + 2 ^ 64)| < 2 * S) ∧
  (2 ≤ S → z0.toInt + z1.toInt < -2 ^ 63 → |q.toInt * S - (p - 2 ^ 64)| < 2 * S)

theorem truncatedProduct (z0 z1 : I64) (p S : Int) (h1 : 0 < S) (h2 : S < 2 ^ 63) (hp : (z0 + z1).toInt = p) :
    TruncatedProduct z0 z1 (floordiv z0 (BitVec.ofInt 64 S) + floordiv z1 (BitVec.ofInt 64 S)) p S := by
  have hc := toInt_add_cases z0 z1
  have hd := (tdiv_add z0.toInt z1.toInt S h1).2
  have hq := fun h => two_quotients z0 z1 S h1 h2 h
  rw [hp] at hc
  refine ⟨?_, ?_, ?_⟩
  · intro g1 g2
    rw [if_neg (by omega), if_neg (by omega), mul_zero, sub_zero] at hc
    rw [hq (Or.inr ⟨g1, g2⟩), hc]
    exact hd
  · intro g g1
    rw [if_pos (by omega)] at hc
    rw [hq (Or.inl g), hc]
    convert hd using 2
    ring
  · intro g g1
    rw [if_neg (by omega), if_pos (by omega)] at hc
    rw [hq (Or.inl g), hc]
    convert hd using 2
    ring

/-- C25: in every history of two-party products (`mul`, `matmul`, convolutions with fixed keyword arguments), the shares of
the result are two shares `z0`, `z1` of the untruncated product, divided by the scale.  At every position where the exact
product `p` fits the ring, the reconstructed result is the quotient up to two quanta, unless `z0 + z1` leaves the ring, in
which case it is that of `p` plus or minus `2^64`. -/
theorem C25_two_party_products (env : Env) (s : Session) (hs : s.Live env) (hn : s.nrParties = 2)
    (hsc : s.config.encoderBase ^ s.config.encoderPrecision < 2 ^ 63) (hb : 0 < s.config.encoderBase)
    (op : (k : K) → Kw → A k →+ B k →+ (o k → I64))
    (rnd : (k : K) → Nat → TripleRand (A k) (B k) (o k → I64)) (kwAt : K → Kw)
    (cs : List (MulCmd K Kw A B)) (hcs : ∀ c ∈ cs, c.Ok env s) (hkw : ∀ c ∈ cs, c.KwIs kwAt) :
    ∃ evs, runMul env s (fun k kw a b => op k kw a b) (fun _ => truncTensor) rnd cs World.empty = .ok evs ∧
      evs.length = countMul cs ∧
      ∀ e ∈ evs, ∃ (z0 z1 : o e.k → I64) (Q : o e.k → I64), z0 + z1 = op e.k e.kw e.x.value e.y.value ∧
        e.out.result.shares.map (·.tensor) = [truncTensor s.config z0, truncTensor s.config z1] ∧
        e.out.result.reconstruct = .ok Q ∧
        ∀ j, ∀ p : Int, -2 ^ 63 ≤ p → p < 2 ^ 63 → op e.k e.kw e.x.value e.y.value j = BitVec.ofInt 64 p →
          TruncatedProduct (z0 j) (z1 j) (Q j) p (s.config.encoderBase ^ s.config.encoderPrecision : Nat) := by
  obtain ⟨evs, h1, h2, h3⟩ := C18_spdz_products env s hs op (fun _ => truncTensor) rnd kwAt cs hcs hkw
  refine ⟨evs, h1, h2, ?_⟩
  intro e he
  obtain ⟨a1, a2, zs, b1, b2, b3⟩ := h3 e he
  rw [hn] at b2
  obtain ⟨z0, z1, rfl⟩ : ∃ z0 z1, zs = [z0, z1] := by
    match zs, b2 with
    | [z0, z1], _ => exact ⟨z0, z1, rfl⟩
  have hwf : e.out.result.WF env := ⟨by rw [a1]; exact hs.toReady, by rw [a2, a1]⟩
  have b3' : z0 + z1 = op e.k e.kw e.x.value e.y.value := by simpa using b3
  rw [if_pos hn] at b1
  refine ⟨z0, z1, _, b3', b1, WF.reconstruct hwf, ?_⟩
  intro j p p1 p2 hp
  have hS0 : 0 < s.config.encoderBase ^ s.config.encoderPrecision := Nat.pow_pos hb
  have hv : (z0 j + z1 j).toInt = p := by
    rw [show z0 j + z1 j = BitVec.ofInt 64 p by rw [← hp, ← b3']; rfl, toInt_ofInt64 p1 p2]
  rw [b1]
  have hsum : ([z0, z1].map (truncTensor s.config)).sum j
      = floordiv (z0 j) (BitVec.ofInt 64 ((s.config.encoderBase ^ s.config.encoderPrecision : Nat) : Int))
        + floordiv (z1 j) (BitVec.ofInt 64 ((s.config.encoderBase ^ s.config.encoderPrecision : Nat) : Int)) := by
    simp only [truncTensor, List.map_cons, List.map_nil, List.sum_cons, List.sum_nil, add_zero, Pi.add_apply,
      BitVec.ofInt_natCast]
  rw [hsum]
  exact truncatedProduct _ _ p _ (by exact_mod_cast hS0) (by exact_mod_cast hsc) hv

/-- C25, read as numbers: at every position the product of two tensors of fixed-point numbers with scale `S` is off by less
than two quanta `1/S`, unless the shares of the untruncated product wrap around the ring (then by `2^64 / S` quanta). -/
theorem C25_fixed_point_product {ι : Type} (env : Env) (s : Session) (hs : s.Live env) (hn : s.nrParties = 2)
    (hsc : s.config.encoderBase ^ s.config.encoderPrecision < 2 ^ 63) (hb : 0 < s.config.encoderBase)
    (rnd : Unit → Nat → TripleRand (ι → I64) (ι → I64) (ι → I64))
    (x y : MPCTensor (ι → I64)) (hx : x.WF env) (hy : y.WF env) (hxs : x.session = s) (hys : y.session = s)
    (a b : ι → I64) (ha : x.reconstruct = .ok a) (hb' : y.reconstruct = .ok b) :
    ∃ (out : MulOut (ι → I64) (ι → I64) (ι → I64)) (w' : World Unit (fun _ => ι → I64) (fun _ => ι → I64) fun _ => ι → I64)
      (q z0 z1 : ι → I64),
      mulMaster (K := Unit) (Kw := Unit) (A := fun _ => ι → I64) (B := fun _ => ι → I64) (C := fun _ => ι → I64)
        env (fun _ _ a b => a * b) (fun _ => truncTensor) rnd () () World.empty x y = .ok (out, w') ∧
      out.result.WF env ∧ out.result.reconstruct = .ok q ∧
      out.result.shares.map (·.tensor) = [truncTensor s.config z0, truncTensor s.config z1] ∧ z0 + z1 = a * b ∧
      ∀ j, -2 ^ 63 ≤ (a j).toInt * (b j).toInt → (a j).toInt * (b j).toInt < 2 ^ 63 →
        TruncatedProduct (z0 j) (z1 j) (q j) ((a j).toInt * (b j).toInt)
          (s.config.encoderBase ^ s.config.encoderPrecision : Nat) ∧
        (-2 ^ 63 ≤ (z0 j).toInt + (z1 j).toInt → (z0 j).toInt + (z1 j).toInt < 2 ^ 63 →
        |((q j).toInt : ℚ) / (s.config.encoderBase ^ s.config.encoderPrecision : Nat)
          - ((a j).toInt : ℚ) / (s.config.encoderBase ^ s.config.encoderPrecision : Nat)
            * (((b j).toInt : ℚ) / (s.config.encoderBase ^ s.config.encoderPrecision : Nat))|
          < 2 / (s.config.encoderBase ^ s.config.encoderPrecision : Nat)) := by
  let op : (k : Unit) → Unit → (ι → I64) →+ (ι → I64) →+ (ι → I64) := fun _ _ => AddMonoidHom.mul
  obtain ⟨out, w', q', kwOf', ts', i, zs, a', b', g1, g2, g3, g4, g5, g6, g7, g8, g9, g10, _, _, g11, g12, g13, g14, g15⟩ :=
    mul_step env s hs op (fun _ => truncTensor) rnd World.empty (fun _ => []) (fun _ => ())
      (fun k _ _ => ⟨0, ⟨0, none, {}, 0⟩, ⟨0, none, {}, 0⟩, ⟨0, none, {}, 0⟩⟩) (good_empty ..) () () x y hx hy hxs hys
  have hwf : out.result.WF env := ⟨by rw [g11]; exact hs.toReady, by rw [g12, g11]⟩
  rw [hn] at g14
  obtain ⟨z0, z1, rfl⟩ : ∃ z0 z1, zs = [z0, z1] := by
    match zs, g14 with
    | [z0, z1], _ => exact ⟨z0, z1, rfl⟩
  rw [WF.reconstruct hx] at ha
  rw [WF.reconstruct hy] at hb'
  cases ha
  cases hb'
  have hz : z0 + z1 = x.value * y.value := by
    have : z0 + z1 = op () () x.value y.value + 0 := by
      rw [← sub_self (op () () a' b')]
      simpa using g15
    simpa [op] using this
  rw [if_pos hn] at g13
  refine ⟨out, w', _, z0, z1, g1, hwf, WF.reconstruct hwf, g13, hz, ?_⟩
  intro j
  change -2 ^ 63 ≤ (x.value j).toInt * (y.value j).toInt → (x.value j).toInt * (y.value j).toInt < 2 ^ 63 →
    TruncatedProduct _ _ _ ((x.value j).toInt * (y.value j).toInt) _ ∧
    (_ → _ → |(_ : ℚ) - ((x.value j).toInt : ℚ) / _ * (((y.value j).toInt : ℚ) / _)| < _)
  intro f1 f2
  have hS0 : 0 < s.config.encoderBase ^ s.config.encoderPrecision := Nat.pow_pos hb
  have hv : (z0 j + z1 j).toInt = (x.value j).toInt * (y.value j).toInt := by
    rw [show z0 j + z1 j = x.value j * y.value j by rw [← Pi.add_apply, hz]; rfl, BitVec.toInt_mul]
    exact bmod64_eq f1 f2
  rw [g13]
  have hsum : ([z0, z1].map (truncTensor s.config)).sum j
      = floordiv (z0 j) (BitVec.ofInt 64 ((s.config.encoderBase ^ s.config.encoderPrecision : Nat) : Int))
        + floordiv (z1 j) (BitVec.ofInt 64 ((s.config.encoderBase ^ s.config.encoderPrecision : Nat) : Int)) := by
    simp only [truncTensor, List.map_cons, List.map_nil, List.sum_cons, List.sum_nil, add_zero, Pi.add_apply,
      BitVec.ofInt_natCast]
  rw [hsum]
  have key := truncatedProduct (z0 j) (z1 j) _ ((s.config.encoderBase ^ s.config.encoderPrecision : Nat) : Int)
    (by exact_mod_cast hS0) (by exact_mod_cast hsc) hv
  refine ⟨key, ?_⟩
  intro c1 c2
  have key := key.1 c1 c2
  generalize s.config.encoderBase ^ s.config.encoderPrecision = S at *
  generalize (floordiv (z0 j) (BitVec.ofInt 64 (S : Int)) + floordiv (z1 j) (BitVec.ofInt 64 (S : Int))).toInt = Q at *
  generalize (x.value j).toInt = X at *
  generalize (y.value j).toInt = Y at *
  have hSQ : (0 : ℚ) < S := by exact_mod_cast hS0
  have keyQ : |(Q : ℚ) * S - X * Y| < 2 * S := by exact_mod_cast key
  have e : (Q : ℚ) / S - X / S * (Y / S) = (Q * S - X * Y) / (S * S) := by field_simp
  rw [e, abs_div, abs_of_pos (mul_pos hSQ hSQ), div_lt_div_iff₀ (mul_pos hSQ hSQ) hSQ]
  nlinarith
end

/-! ## C27 -/

/-- the number of wrap-arounds of the shares of the secret, as computed by the parties -/
theorem theta_exact (xs rs bs : List I64) (wr wz : I64) (hlen : xs.length = rs.length) (hne : xs ≠ [])
    (hbs : (xs.zip rs).mapM (fun p => countWraps [p.1, p.2]) = .ok bs) (hwr : countWraps rs = .ok wr)
    (hwz : countWraps (List.zipWith (· + ·) rs xs) = .ok wz)
    (m1 : NoMinPair rs) (m2 : ∀ p ∈ xs.zip rs, ¬ (p.1 = BitVec.intMin 64 ∧ p.2 = BitVec.intMin 64))
    (m3 : NoMinPair (List.zipWith (· + ·) rs xs))
    (h1 : -2 ^ 63 ≤ xs.sum.toInt + rs.sum.toInt) (h2 : xs.sum.toInt + rs.sum.toInt < 2 ^ 63) (theta : Int)
    (htheta : (xs.map BitVec.toInt).sum = xs.sum.toInt + theta * 2 ^ 64) :
    bs.sum - wr + wz = BitVec.ofInt 64 theta := by
  have hb : ∀ (xs rs bs : List I64), xs.length = rs.length →
      (xs.zip rs).mapM (fun p => countWraps [p.1, p.2]) = .ok bs →
      (∀ p ∈ xs.zip rs, ¬ (p.1 = BitVec.intMin 64 ∧ p.2 = BitVec.intMin 64)) →
      ∃ β : Int, bs.sum = BitVec.ofInt 64 β ∧
        (xs.map BitVec.toInt).sum + (rs.map BitVec.toInt).sum
          = ((List.zipWith (· + ·) rs xs).map BitVec.toInt).sum + β * 2 ^ 64 ∧
        (List.zipWith (· + ·) rs xs).sum = xs.sum + rs.sum := by
    intro xs
    induction xs with
    | nil =>
      intro rs bs hl hbs _
      have : rs = [] := by simpa using hl.symm
      subst this
      cases hbs
      exact ⟨0, by simp, by simp, by simp⟩
    | cons x xs ih =>
      intro rs bs hl hbs hm
      cases rs with
      | nil => simp at hl
      | cons r rs =>
        rw [List.zip_cons_cons, List.mapM_cons] at hbs
        obtain ⟨w, w1, w2, _⟩ := countWraps_exact [x, r] (by simp) (by
          intro l₁ m l₂ hl hne hmin
          have := hm (x, r) (by simp)
          match l₁, hne with
          | [a], _ =>
            simp at hl
            obtain ⟨rfl, rfl, _⟩ := hl
            simp at hmin
            exact this hmin
          | a :: b :: l, _ =>
            have := congrArg List.length hl
            simp at this)
        dsimp only at hbs
        rw [w1, ok_bind] at hbs
        cases hrest : (xs.zip rs).mapM (fun p => countWraps [p.1, p.2]) with
        | error e => rw [hrest] at hbs; cases hbs
        | ok bs' =>
          rw [hrest] at hbs
          cases hbs
          obtain ⟨β, c1, c2, c3⟩ := ih rs bs' (by simpa using hl) hrest (fun p hp => hm p (by simp [hp]))
          refine ⟨w + β, ?_, ?_, ?_⟩
          · rw [List.sum_cons, c1, BitVec.ofInt_add]
          · simp only [List.map_cons, List.map_nil, List.sum_cons, List.sum_nil, List.zipWith_cons_cons, add_zero] at w2 ⊢
            rw [add_comm x r] at w2
            linear_combination w2 + c2
          · simp only [List.zipWith_cons_cons, List.sum_cons, c3]
            ring
  obtain ⟨β, c1, c2, c3⟩ := hb xs rs bs hlen hbs m2
  have hrs : rs ≠ [] := by
    intro h
    rw [h] at hlen
    exact hne (by simpa using hlen)
  obtain ⟨w, w1, w2, _⟩ := countWraps_exact rs hrs m1
  obtain ⟨z, z1, z2, _⟩ := countWraps_exact (List.zipWith (· + ·) rs xs) (by
    intro h
    rw [List.zipWith_eq_nil_iff] at h
    tauto) m3
  rw [hwr] at w1
  rw [hwz] at z1
  cases w1
  cases z1
  rw [c1, sub_eq_add_neg, ← BitVec.ofInt_neg, ← BitVec.ofInt_add, ← BitVec.ofInt_add]
  congr 1
  have hz : (List.zipWith (· + ·) rs xs).sum.toInt = xs.sum.toInt + rs.sum.toInt := by
    rw [c3, toInt_add_cases, if_neg (by omega), if_neg (by omega)]
    ring
  rw [hz] at z2
  have : (theta - (β - w + z)) * 2 ^ 64 = 0 := by linear_combination c2 + z2 - w2 - htheta
  omega

/-- the result of `public_divide` as an integer, when the correction is exact -/
theorem divide_value (xs : List I64) (v : I64) (d theta : Int) (h1 : 0 < d) (h2 : d < 2 ^ 63)
    (hlen : xs.length ≤ 2 ^ 58) (hne : xs ≠ [])
    (htheta : (xs.map BitVec.toInt).sum = v.toInt + theta * 2 ^ 64) :
    |((xs.map (floordiv · (BitVec.ofInt 64 d))).sum - BitVec.ofInt 64 (theta * 4 * (2 ^ 62 / d))).toInt * d - v.toInt|
      ≤ xs.length * (d - 1) + 4 * |theta| * (2 ^ 62 % d) := by
  have e1 : (xs.map (floordiv · (BitVec.ofInt 64 d))).sum = BitVec.ofInt 64 ((xs.map BitVec.toInt).map (·.tdiv d)).sum := by
    clear htheta hlen hne
    induction xs with
    | nil => rfl
    | cons x xs ih =>
      rw [List.map_cons, List.sum_cons, ih, List.map_cons, List.map_cons, List.sum_cons, BitVec.ofInt_add]
      congr 1
      apply BitVec.eq_of_toInt_eq
      have hb := toInt_bounds (floordiv x (BitVec.ofInt 64 d))
      rw [toInt_floordiv x d h1 h2] at hb
      rw [toInt_floordiv x d h1 h2, toInt_ofInt64 hb.1 hb.2]
  have e2 := sum_tdiv_rem (xs.map BitVec.toInt) d h1
  rw [List.length_map, htheta] at e2
  generalize ((xs.map BitVec.toInt).map (·.tdiv d)).sum = Q at *
  have hb : |(xs.map BitVec.toInt).sum| ≤ xs.length * 2 ^ 63 := by
    clear htheta hlen hne e1 e2
    induction xs with
    | nil => simp
    | cons x xs ih =>
      have := toInt_bounds x
      rw [List.map_cons, List.sum_cons, List.length_cons]
      push_cast
      rw [abs_le] at *
      constructor <;> linarith [this.1, this.2, ih.1, ih.2]
  have hvb := toInt_bounds v
  have hL : (xs.length : Int) ≤ 2 ^ 58 := by exact_mod_cast hlen
  have hL1 : (1 : Int) ≤ xs.length := by
    have := List.length_pos_iff.mpr hne
    exact_mod_cast this
  have hth : |theta| ≤ xs.length := by
    rw [htheta, abs_le] at hb
    rw [abs_le]
    constructor <;> by_contra hc <;> linarith
  have hmod0 := Int.emod_nonneg (2 ^ 62) h1.ne'
  have hmod1 := Int.emod_lt_of_pos (2 ^ 62) h1
  have hdm := Int.mul_ediv_add_emod (2 ^ 62) d
  generalize (2 ^ 62 : Int) / d = q at *
  generalize (2 ^ 62 : Int) % d = m at *
  -- the exact integer
  have key : |(Q - theta * 4 * q) * d - v.toInt| ≤ xs.length * (d - 1) + 4 * |theta| * m := by
    have : (Q - theta * 4 * q) * d - v.toInt = (d * Q - (v.toInt + theta * 2 ^ 64)) + 4 * theta * m := by
      linear_combination -4 * theta * hdm
    rw [this]
    refine (abs_add_le _ _).trans ?_
    have h4 : |4 * theta * m| = 4 * |theta| * m := by
      rw [abs_mul, abs_mul, abs_of_nonneg hmod0]
      norm_num
    rw [h4]
    linarith
  have hrange : -2 ^ 63 ≤ Q - theta * 4 * q ∧ Q - theta * 4 * q < 2 ^ 63 := by
    have hth0 : 0 ≤ |theta| := abs_nonneg _
    have hm : 4 * |theta| * m ≤ 4 * xs.length * (d - 1) := by nlinarith
    have key2 : |(Q - theta * 4 * q) * d - v.toInt| ≤ 5 * xs.length * (d - 1) := by linarith
    generalize Q - theta * 4 * q = V at *
    rw [abs_le] at key2
    by_cases hd : d = 1
    · subst hd
      constructor <;> linarith [hvb.1, hvb.2, key2.1, key2.2]
    · have hd2 : 2 ≤ d := by omega
      constructor <;> by_contra hc <;> nlinarith
  have e3 : BitVec.ofInt 64 Q - BitVec.ofInt 64 (theta * 4 * q) = BitVec.ofInt 64 (Q - theta * 4 * q) := by
    rw [sub_eq_add_neg, sub_eq_add_neg, ← BitVec.ofInt_neg, ← BitVec.ofInt_add]
  rw [e1, e3, toInt_ofInt64 hrange.1 hrange.2]
  exact key

/-- What C27 assumes of one division: the shares `rs` of the mask `r` and `xs` of the secret `v`, whose integer sum is
`v + theta * 2^64`.  The opened value `v + r` must not wrap (this is what the code assumes with high probability), and no
count of wrap-arounds may meet the pair `-2^63, -2^63` of `C26_min_pair_missed`. -/
structure DivideOk (env : Env) (s : Session) (rnd : WrapRand) (x : MPCTensor I64) (v : I64) (theta : Int) : Prop where
  session : x.session = s
  wf : x.WF env
  ring : s.ringSize = 2 ^ 64
  three : 3 ≤ s.nrParties
  value : x.reconstruct = .ok v
  wraps : ((x.shares.map (·.tensor)).map BitVec.toInt).sum = v.toInt + theta * 2 ^ 64
  low : -2 ^ 63 ≤ v.toInt + rnd.r.toInt
  high : v.toInt + rnd.r.toInt < 2 ^ 63
  minPair : ∃ rs, generateShares env ⟨rnd.r, none, { encoderPrecision := 0 }, 2 ^ 64⟩ s.nrParties rnd.dr = .ok rs ∧
    NoMinPair (rs.map (·.tensor)) ∧
    (∀ p ∈ (x.shares.map (·.tensor)).zip (rs.map (·.tensor)), ¬ (p.1 = BitVec.intMin 64 ∧ p.2 = BitVec.intMin 64)) ∧
    NoMinPair (List.zipWith (· + ·) (rs.map (·.tensor)) (x.shares.map (·.tensor)))

/-- one division, with the correction still to be evaluated -/
theorem divide_run (fl : ℚ → ℚ) (env : Env) (s : Session) (hs : s.Live env) (rnd : WrapRand) (x : MPCTensor I64) (v : I64)
    (theta : Int) (h : DivideOk env s rnd x v theta) (d : Int) :
    ∃ res x' : MPCTensor I64, publicDivide fl env rnd x d = .ok (res, x') ∧ res.WF env ∧ res.session = s ∧ x'.WF env ∧
      x'.session = s ∧ res.shares.tail = x'.shares.tail ∧
      x'.shares.map (·.tensor) = (x.shares.map (·.tensor)).map (floordiv · (BitVec.ofInt 64 d)) ∧
      res.reconstruct = .ok (((x.shares.map (·.tensor)).map (floordiv · (BitVec.ofInt 64 d))).sum
        - PubEnc.enc s.config (wrapCorrection fl s.config (2 ^ 64) (BitVec.ofInt 64 theta) d)) := by
  obtain ⟨n, hn⟩ : ∃ n, s.nrParties = n + 3 := ⟨s.nrParties - 3, by have := h.three; omega⟩
  obtain ⟨res, x', bs, wr, wz, a1, a2, a3, a4, a5, a6, a7, b1, b2, b3, b4⟩ :=
    divide_core fl env s hs n hn rnd x h.wf h.session d
  refine ⟨res, x', a1, a2, a3, a4, a5, a6, a7, ?_⟩
  rw [b4]
  obtain ⟨rs, r1, r2, r3, r4⟩ := h.minPair
  have hrs : rs.map (·.tensor) = (List.range (n + 3)).map (shareTensorOf rnd.r (n + 1) rnd.dr) := by
    rw [hn, generateShares_eq env ⟨rnd.r, none, _, _⟩ rfl] at r1
    cases r1
    simp only [sharesOf, ite_self, List.map_map]
    rfl
  rw [hrs] at r2 r3 r4
  have hv := h.value
  rw [WF.reconstruct h.wf] at hv
  have hv : (x.shares.map (·.tensor)).sum = v := by simpa using hv
  have hsum : ((List.range (n + 3)).map (shareTensorOf rnd.r (n + 1) rnd.dr)).sum = rnd.r := by
    rw [sum_range_list]
    exact sum_shareTensorOf rnd.r (n + 1) rnd.dr
  have hlen : x.shares.length = n + 3 := by
    have := congrArg List.length h.wf.tags
    rw [h.session] at this
    simpa [hs.ranks, hn] using this
  have ht := theta_exact (x.shares.map (·.tensor)) _ bs wr wz (by simp [hlen]) (by simpa using WF.nonempty h.wf) b1 b2 b3 r2 r3 r4
    (by rw [hv, hsum]; exact h.low) (by rw [hv, hsum]; exact h.high) theta (by rw [hv]; exact h.wraps)
  rw [ht, h.ring]

theorem DivideOk.length {env : Env} {s : Session} (hs : s.Live env) {rnd : WrapRand} {x : MPCTensor I64} {v : I64} {theta : Int}
    (h : DivideOk env s rnd x v theta) : x.shares.length = s.nrParties := by
  have := congrArg List.length h.wf.tags
  rw [h.session] at this
  simpa [hs.ranks] using this

theorem DivideOk.sum {env : Env} {s : Session} {rnd : WrapRand} {x : MPCTensor I64} {v : I64} {theta : Int}
    (h : DivideOk env s rnd x v theta) : (x.shares.map (·.tensor)).sum = v := by
  have hv := h.value
  rw [WF.reconstruct h.wf] at hv
  simpa using hv

/-- C27 (partial): with precision 0 (integers), any number of parties from three on and any positive divisor, the result is
within `n + 4 |theta|` quanta of the quotient, where `theta` is the number of wrap-arounds of the shares.
Missing: with a positive precision the correction is computed in float32, see `C27_float32_error`. -/
theorem C27_public_divide_integers_partial (fl : ℚ → ℚ) (env : Env) (s : Session) (hs : s.Live env) (rnd : WrapRand)
    (x : MPCTensor I64) (v : I64) (theta : Int) (h : DivideOk env s rnd x v theta) (d : Int) (h1 : 0 < d) (h2 : d < 2 ^ 63)
    (hn : s.nrParties ≤ 2 ^ 58) (hp : s.config.encoderPrecision = 0) :
    ∃ (res x' : MPCTensor I64) (q : I64), publicDivide fl env rnd x d = .ok (res, x') ∧ res.WF env ∧
      res.reconstruct = .ok q ∧ |q.toInt * d - v.toInt| ≤ (s.nrParties + 4 * |theta|) * (d - 1) := by
  obtain ⟨res, x', a1, a2, a3, _, _, _, _, a8⟩ := divide_run fl env s hs rnd x v theta h d
  refine ⟨res, x', _, a1, a2, a8, ?_⟩
  have henc : (PubEnc.enc s.config (wrapCorrection fl s.config (2 ^ 64) (BitVec.ofInt 64 theta) d) : I64)
      = BitVec.ofInt 64 (theta * 4 * (2 ^ 62 / d)) := by
    unfold wrapCorrection
    dsimp only
    rw [if_pos hp]
    change BitVec.ofInt 64 ((_ : I64).toInt * ((s.config.encoderBase ^ s.config.encoderPrecision : Nat) : Int)) = _
    rw [hp, pow_zero, Nat.cast_one, mul_one, BitVec.ofInt_toInt, BitVec.ofInt_mul, BitVec.ofInt_mul]
    rfl
  rw [henc]
  have key := divide_value (x.shares.map (·.tensor)) v d theta h1 h2 (by simpa [h.length hs] using hn)
    (by simpa using WF.nonempty h.wf) h.wraps
  rw [List.length_map, h.length hs] at key
  refine key.trans ?_
  have hm := Int.emod_lt_of_pos (2 ^ 62) h1
  have := abs_nonneg theta
  nlinarith

/-- with a binary encoder and a power of two as the divisor the correction is exact -/
theorem pow2_value (c : Config) (xs : List I64) (v : I64) (theta : Int) (k : Nat) (hk : k ≤ 62) (h3 : 3 ≤ xs.length)
    (hn : xs.length ≤ 2 ^ 24) (hb : c.encoderBase = 2) (hp0 : c.encoderPrecision ≠ 0) (hp : c.encoderPrecision ≤ 24)
    (htheta : (xs.map BitVec.toInt).sum = v.toInt + theta * 2 ^ 64) :
    |((xs.map (floordiv · (BitVec.ofInt 64 (2 ^ k)))).sum
      - PubEnc.enc c (wrapCorrection f32 c (2 ^ 64) (BitVec.ofInt 64 theta) (2 ^ k))).toInt * 2 ^ k - v.toInt| ≤ xs.length * (2 ^ k - 1) := by
  have hd0 : (0 : Int) < 2 ^ k := by positivity
  have hd1 : (2 : Int) ^ k < 2 ^ 63 := by
    exact_mod_cast Nat.pow_lt_pow_right (by norm_num : 1 < 2) (by omega : k < 63)
  have key := divide_value xs v (2 ^ k) theta hd0 hd1 (hn.trans (by norm_num)) (by rintro rfl; simp at h3) htheta
  have hq : (2 ^ 62 : Int) / 2 ^ k = 2 ^ (62 - k) := by
    apply Int.ediv_eq_of_eq_mul_left (by positivity)
    rw [← pow_add]
    congr 1
    omega
  have hmod : (2 ^ 62 : Int) % 2 ^ k = 0 := Int.emod_eq_zero_of_dvd (pow_dvd_pow 2 hk)
  -- bound for theta
  have hthb : |theta| ≤ xs.length := by
    have hb : ∀ xs : List I64, |(xs.map BitVec.toInt).sum| ≤ xs.length * 2 ^ 63 := by
      intro xs
      induction xs with
      | nil => simp
      | cons x xs ih =>
        have := toInt_bounds x
        rw [List.map_cons, List.sum_cons, List.length_cons]
        push_cast
        rw [abs_le] at *
        constructor <;> linarith [this.1, this.2, ih.1, ih.2]
    have := hb xs
    rw [htheta, abs_le] at this
    have hvb := toInt_bounds v
    have h3 : (3 : Int) ≤ xs.length := by exact_mod_cast h3
    rw [abs_le]
    constructor <;> by_contra hc <;> linarith [this.1, this.2, hvb.1, hvb.2]
  have hth24 : |theta| ≤ 2 ^ 24 := hthb.trans (by exact_mod_cast hn)
  have hti : (BitVec.ofInt 64 theta).toInt = theta := by
    rw [abs_le] at hth24
    exact toInt_ofInt64 (by omega) (by omega)
  have henc : (PubEnc.enc c (wrapCorrection f32 c (2 ^ 64) (BitVec.ofInt 64 theta) (2 ^ k)) : I64)
      = BitVec.ofInt 64 (theta * 4 * (2 ^ 62 / 2 ^ k)) := by
    unfold wrapCorrection
    dsimp only
    rw [if_neg hp0]
    have hqq : (((2 ^ 64 : Nat) : Int) / 4) / 2 ^ k = 2 ^ (62 - k) := hq
    rw [hqq, hq]
    have e0 : c.encoder = FixedPointEncoder.new 2 c.encoderPrecision := by
      unfold Config.encoder
      rw [hb]
    change BitVec.ofInt 64 (FixedPointEncoder.truncRat (_ * (c.encoder.scale : ℚ))) = _
    rw [e0, C02_float32_partial _ hp0 hp _ (by rw [hti]; exact hth24), hti]
    change BitVec.ofInt 64 (FixedPointEncoder.truncRat (_ * ((2 ^ c.encoderPrecision : Nat) : ℚ))) = _
    generalize c.encoderPrecision = p
    have z : ∀ e : Int, (2 : ℚ) ^ e ≠ 0 := fun e => by positivity
    have hp2 : ((2 ^ p : Nat) : ℚ) = (2 : ℚ) ^ (p : Int) := by push_cast; rw [zpow_natCast]
    have e1 : f32 ((theta : ℚ) / (2 ^ p : Nat)) = theta * (2 : ℚ) ^ (-(p : Int)) := by
      rw [hp2, div_eq_mul_inv, ← zpow_neg]
      exact f32_exact theta _ hth24
    have e2 : f32 (theta * (2 : ℚ) ^ (-(p : Int)) * 4) = theta * (2 : ℚ) ^ (2 - (p : Int)) := by
      have : (theta : ℚ) * (2 : ℚ) ^ (-(p : Int)) * 4 = theta * (2 : ℚ) ^ (2 - (p : Int)) := by
        rw [sub_eq_add_neg, zpow_add₀ (by norm_num)]
        norm_num
        ring
      rw [this]
      exact f32_exact theta _ hth24
    have e3 : f32 (((2 ^ (62 - k) : Int)) : ℚ) = (2 : ℚ) ^ ((62 - k : Nat) : Int) := by
      have := f32_exact 1 ((62 - k : Nat) : Int) (by norm_num)
      rw [Int.cast_one, one_mul] at this
      rw [← this, zpow_natCast]
      push_cast
      rfl
    have e4 : f32 ((theta : ℚ) * (2 : ℚ) ^ (2 - (p : Int)) * (2 : ℚ) ^ ((62 - k : Nat) : Int))
        = theta * (2 : ℚ) ^ (2 - (p : Int) + ((62 - k : Nat) : Int)) := by
      rw [mul_assoc, ← zpow_add₀ (by norm_num)]
      exact f32_exact theta _ hth24
    rw [e1, e2, e3, e4, hp2, mul_assoc, ← zpow_add₀ (by norm_num)]
    have e5 : (theta : ℚ) * (2 : ℚ) ^ (2 - (p : Int) + ((62 - k : Nat) : Int) + p) = ((theta * 4 * 2 ^ (62 - k) : Int) : ℚ) := by
      have : (2 - (p : Int) + ((62 - k : Nat) : Int) + p) = 2 + ((62 - k : Nat) : Int) := by ring
      rw [this, zpow_add₀ (by norm_num), zpow_natCast]
      push_cast
      ring
    rw [e5, truncRat_intCast]
  rw [henc]
  rw [hmod] at key
  simpa using key

/-- C27 (partial): with a binary encoder of at most 24 bits and a divisor that is a power of two (this is the truncation
after every product), the float32 correction is exact and the result is within `n` quanta of the quotient.
Missing: other divisors, see `C27_float32_error`. -/
theorem C27_public_divide_pow2_partial (env : Env) (s : Session) (hs : s.Live env) (rnd : WrapRand)
    (x : MPCTensor I64) (v : I64) (theta : Int) (h : DivideOk env s rnd x v theta) (k : Nat) (hk : k ≤ 62)
    (hn : s.nrParties ≤ 2 ^ 24) (hb : s.config.encoderBase = 2)
    (hp0 : s.config.encoderPrecision ≠ 0) (hp : s.config.encoderPrecision ≤ 24) :
    ∃ (res x' : MPCTensor I64) (q : I64), publicDivide f32 env rnd x (2 ^ k) = .ok (res, x') ∧ res.WF env ∧
      res.reconstruct = .ok q ∧ |q.toInt * 2 ^ k - v.toInt| ≤ s.nrParties * (2 ^ k - 1) := by
  obtain ⟨res, x', a1, a2, a3, _, _, _, _, a8⟩ := divide_run f32 env s hs rnd x v theta h (2 ^ k)
  refine ⟨res, x', _, a1, a2, a8, ?_⟩
  have hlen : (x.shares.map (·.tensor)).length = s.nrParties := by rw [List.length_map, h.length hs]
  have := pow2_value s.config (x.shares.map (·.tensor)) v theta k hk (by rw [hlen]; exact h.three) (by rw [hlen]; exact hn) hb hp0 hp h.wraps
  rwa [hlen] at this

/-- C27 fails with the default configuration (precision 16) and the divisor 3: the shares of `100.0` wrap around once, the
correction `2^64 / 3` is rounded to float32, and the result is off by more than `2^37` quanta (the quotient is about
`2^21` quanta). -/
theorem C27_float32_error :
    ∃ (rnd : WrapRand) (x res x' : MPCTensor I64) (v q : I64), DivideOk exEnv exSession rnd x v 1 ∧
      v = FixedPointEncoder.encode ({} : Config).encoder (.float 100) ∧
      publicDivide f32 exEnv rnd x 3 = .ok (res, x') ∧ res.reconstruct = .ok q ∧ 2 ^ 37 < |q.toInt * 3 - v.toInt| := by
  let x : MPCTensor I64 := exSecret 0x6000000000000000 0x6000000000000000 0x4000000000640000
  let rnd : WrapRand := ⟨0, fun _ => 0, fun _ => 0⟩
  have hok : DivideOk exEnv exSession rnd x 0x640000 1 := by
    refine ⟨rfl, exSecret_wf _ _ _, rfl, by decide, by decide +kernel, by decide +kernel, by decide +kernel,
      by decide +kernel, _, rfl, ?_, ?_, ?_⟩
    · exact noMinPair_of_notMem (by decide +kernel)
    · decide +kernel
    · exact noMinPair_of_notMem (by decide +kernel)
  obtain ⟨res, x', h1, _, _, _, _, _, _, h8⟩ := divide_run f32 exEnv exSession exLive rnd x _ 1 hok 3
  refine ⟨rnd, x, res, x', _, _, hok, by decide +kernel, h1, h8, ?_⟩
  decide +kernel

/-- The same sharing divided by the scale `2^16`, as after a product: no error although the shares wrap around. -/
example : DivideOk exEnv exSession ⟨77, fun k => BitVec.ofNat 64 (k + 5), fun _ => 9⟩
      (exSecret 0x6000000000000000 0x6000000000000000 0x4000000000640000) 0x640000 1 ∧
    (match publicDivide f32 exEnv ⟨77, fun k => BitVec.ofNat 64 (k + 5), fun _ => 9⟩
        (exSecret 0x6000000000000000 0x6000000000000000 0x4000000000640000) (2 ^ 16) with
      | .ok (res, _) => res.reconstruct
      | .error e => .error e) = .ok 100 := by
  refine ⟨⟨rfl, exSecret_wf _ _ _, rfl, by decide, by decide +kernel, by decide +kernel, by decide +kernel,
      by decide +kernel, _, rfl, ?_, ?_, ?_⟩, by decide +kernel⟩
  · exact noMinPair_of_notMem (by decide +kernel)
  · decide +kernel
  · exact noMinPair_of_notMem (by decide +kernel)

/-- a session of two parties 10, 11 with party session uuids 100, 101 -/
def exPair : Session :=
  { uuid := some 103, parties := [10, 11], nrParties := 2, protocol := fssProtocol, config := {},
    ringSize := 2 ^ 64, tensorType := .int64, minValue := -2 ^ 63, maxValue := 2 ^ 63 - 1,
    rankToUuid := [100, 101],
    sessionPtrs := (List.range 2).map fun r =>
      { uuid := 100 + r, rank := r, nrParties := 2, config := {}, ringSize := 2 ^ 64, tensorType := .int64,
        protocol := fssProtocol }
    autogradActive := false }

/-- the parties' sessions of `exPair` -/
def exPairEnv : Env := Env.register (fun _ => none) exPair.sessionPtrs

theorem exPairReady : exPair.Ready exPairEnv where
  ptrs := by decide
  two := by decide
  parties := by decide
  ranks := by decide
  ring := ⟨.int64, by decide⟩
  known := by
    intro u hu
    simp [exPair] at hu
    rcases hu with rfl | rfl
    · exact ⟨_, rfl, rfl, rfl⟩
    · exact ⟨_, rfl, rfl, rfl⟩

theorem exPairLive : exPair.Live exPairEnv where
  toReady := exPairReady
  ranked := by
    intro r u h
    have hr : r < 2 := (List.getElem?_eq_some_iff.mp h).1
    have : r = 0 ∨ r = 1 := by omega
    rcases this with rfl | rfl
    · simp [exPair] at h
      subst h
      exact ⟨_, rfl, rfl, rfl⟩
    · simp [exPair] at h
      subst h
      exact ⟨_, rfl, rfl, rfl⟩
  distinct := by decide
  pointers := by decide

/-- a secret of `exPair` with given shares -/
def exPairSecret {T : Type} (a b : T) : MPCTensor T := ⟨exPair, [⟨a, some 100, {}, 2 ^ 64⟩, ⟨b, some 101, {}, 2 ^ 64⟩]⟩

theorem exPairSecret_wf {T : Type} (a b : T) : (exPairSecret a b).WF exPairEnv := ⟨exPairReady, rfl⟩

/-- C24 on two sharings of 1000: the first does not wrap, the second does. -/
example :
    (match publicDivide f32 exPairEnv ⟨0, fun _ => 0, fun _ => 0⟩ (exPairSecret 2999 (BitVec.ofInt 64 (-1999))) 7 with
      | .ok (res, _) => res.reconstruct
      | .error e => .error e) = .ok 143 ∧
    (1000 : Int).tdiv 7 = 142 ∧
    (match publicDivide f32 exPairEnv ⟨0, fun _ => 0, fun _ => 0⟩
        (exPairSecret (BitVec.intMin 64) (BitVec.intMin 64 + 1000)) 8 with
      | .ok (res, _) => res.reconstruct
      | .error e => .error e) = .ok (BitVec.ofInt 64 (125 - 2 ^ 61)) := by decide +kernel

/-- C25: `1.5 * 2.5 = 3.75` with scale `2^16`, less one quantum. -/
example : exPair.Live exPairEnv ∧ exPair.nrParties = 2 ∧
    (match mulMaster (K := Unit) (Kw := Unit) (A := fun _ => Fin 1 → I64) (B := fun _ => Fin 1 → I64) (C := fun _ => Fin 1 → I64)
        exPairEnv (fun _ _ a b => a * b) (fun _ => truncTensor)
        (fun _ _ => ⟨fun _ => 11, fun _ => 13, fun _ _ => 5, fun _ _ => 6, fun _ _ => 7⟩) () () World.empty
        (exPairSecret (fun _ => BitVec.ofNat 64 (3 * 2 ^ 15 + 9)) fun _ => BitVec.ofInt 64 (-9))
        (exPairSecret (fun _ => BitVec.ofNat 64 (5 * 2 ^ 15 + 4)) fun _ => BitVec.ofInt 64 (-4)) with
      | .ok (out, _) => out.result.reconstruct.map fun v : Fin 1 → I64 => v 0
      | .error e => .error e) = .ok (BitVec.ofNat 64 (15 * 2 ^ 14 - 1)) := ⟨exPairLive, rfl, by decide +kernel⟩

end SyMPC
