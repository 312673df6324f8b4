import Verif.Props.Falcon

/-!
# C32: truncation of replicated tensors
-/

namespace SyMPC

theorem toInt_bounds' {w : Nat} (hw : 0 < w) (x : BitVec w) : -(2 ^ (w - 1) : Int) ≤ x.toInt ∧ x.toInt < 2 ^ (w - 1) := by
  have h1 := BitVec.two_mul_toInt_lt (x := x)
  have h2 := BitVec.le_two_mul_toInt (x := x)
  have h3 : (2 : Int) ^ w = 2 * 2 ^ (w - 1) := by rw [← pow_succ']; congr 1; omega
  omega

theorem toInt_add_of {w : Nat} (hw : 0 < w) (a b : BitVec w) (h1 : -(2 ^ (w - 1) : Int) ≤ a.toInt + b.toInt)
    (h2 : a.toInt + b.toInt < 2 ^ (w - 1)) : (a + b).toInt = a.toInt + b.toInt := by
  rw [BitVec.toInt_add]
  have h3 : ((2 ^ w : Nat) : Int) = 2 * 2 ^ (w - 1) := by
    rw [Nat.cast_pow, Nat.cast_ofNat, ← pow_succ']; congr 1; omega
  apply Int.bmod_eq_of_le_mul_two <;> rw [h3] <;> omega

/-- the quotients of two numbers against the quotient of their sum -/
theorem floor_add (a b k : Int) (hk : 0 < k) : a / k + b / k = (a + b) / k ∨ a / k + b / k = (a + b) / k - 1 := by
  have ha := Int.mul_ediv_add_emod a k
  have hb := Int.mul_ediv_add_emod b k
  have h1 := Int.emod_nonneg a (by omega : k ≠ 0)
  have h2 := Int.emod_lt_of_pos a hk
  have h3 := Int.emod_nonneg b (by omega : k ≠ 0)
  have h4 := Int.emod_lt_of_pos b hk
  by_cases hc : a % k + b % k < k
  · left
    refine (Int.ediv_eq_iff_of_pos hk).mpr ?_ |>.symm
    constructor <;> nlinarith
  · right
    have : (a + b) / k = a / k + b / k + 1 := by
      refine (Int.ediv_eq_iff_of_pos hk).mpr ?_
      constructor <;> nlinarith
    omega

theorem half_bound {w : Nat} (hw : 1 < w) (x : BitVec w) (k : Int) (hk : 2 ≤ k) :
    -(2 ^ (w - 1) : Int) ≤ 2 * (x.toInt / k) ∧ 2 * (x.toInt / k) < 2 ^ (w - 1) := by
  have hb := toInt_bounds' (by omega) x
  have h0 := Int.mul_ediv_add_emod x.toInt k
  have h1 := Int.emod_nonneg x.toInt (by omega : k ≠ 0)
  have h2 := Int.emod_lt_of_pos x.toInt (by omega : 0 < k)
  generalize x.toInt % k = m at *
  generalize x.toInt = X at *
  generalize X / k = d at *
  have heven : (2 : Int) ^ (w - 1) = 2 * 2 ^ (w - 2) := by rw [← pow_succ']; congr 1; omega
  have hp : (0 : Int) < 2 ^ (w - 2) := by positivity
  rw [heven] at hb ⊢
  generalize (2 : Int) ^ (w - 2) = H at *
  constructor
  · by_contra hlt
    have hd : d ≤ -H - 1 := by omega
    have e1 : k * d ≤ k * (-H - 1) := mul_le_mul_of_nonneg_left hd (by omega)
    have e2 : 2 * H ≤ k * H := mul_le_mul_of_nonneg_right hk (by omega)
    have e3 : k * (-H - 1) = -(k * H) - k := by ring
    omega
  · by_contra hge
    have hd : H ≤ d := by omega
    have e1 : k * H ≤ k * d := mul_le_mul_of_nonneg_left hd (by omega)
    have e2 : 2 * H ≤ k * H := mul_le_mul_of_nonneg_right hk (by omega)
    omega

/-- what the parties compute locally: `x >> precision` if the base is 2, `x // scale` otherwise -/
def localQuot (c : Config) (x : Int) : Int :=
  if c.encoderBase = 2 then x / 2 ^ c.encoderPrecision else x.tdiv ((c.encoderBase ^ c.encoderPrecision : Nat) : Int)

/-- the scale fits the ring (nothing is asked if the base is 2) -/
def ScaleFits (w : Nat) (c : Config) : Prop :=
  c.encoderBase = 2 ∨ (0 < c.encoderBase ^ c.encoderPrecision ∧ c.encoderBase ^ c.encoderPrecision < 2 ^ (w - 1))

theorem localQuot_add (w : Nat) (c : Config) (hc : ScaleFits w c) (a b : Int) :
    |localQuot c a + localQuot c b - localQuot c (a + b)| ≤ 1 := by
  unfold localQuot
  split
  · have := floor_add a b (2 ^ c.encoderPrecision) (by positivity)
    rw [abs_le]
    omega
  · rename_i h
    rcases hc with hc | hc
    · exact absurd hc h
    · exact (tdiv_add a b _ (by exact_mod_cast hc.1)).1

theorem shiftPow_sum (w : Nat) (hw1 : 1 < w) (c : Config) (hc : ScaleFits w c) (a b : BitVec w)
    (h1 : -(2 ^ (w - 1) : Int) ≤ a.toInt + b.toInt) (h2 : a.toInt + b.toInt < 2 ^ (w - 1)) :
    (shiftPow w c a + shiftPow w c b).toInt = localQuot c a.toInt + localQuot c b.toInt := by
  have hw : 0 < w := by omega
  unfold shiftPow localQuot
  split
  · have key : ∀ x : BitVec w, (x.sshiftRight c.encoderPrecision).toInt = x.toInt / 2 ^ c.encoderPrecision := by
      intro x
      rw [BitVec.toInt_sshiftRight, Int.shiftRight_eq_div_pow]
      norm_cast
    rw [toInt_add_of hw _ _, key, key]
    all_goals rw [key, key]
    all_goals
      rcases Nat.eq_zero_or_pos c.encoderPrecision with h | h
      · rw [h]; simp only [pow_zero, Int.ediv_one]; assumption
      · have hk : (2 : Int) ≤ 2 ^ c.encoderPrecision := by
          calc (2 : Int) = 2 ^ 1 := by norm_num
            _ ≤ 2 ^ c.encoderPrecision := pow_le_pow_right₀ (by norm_num) h
        have ha := half_bound hw1 a _ hk
        have hb := half_bound hw1 b _ hk
        omega
  · rename_i hbase
    have hk := hc.resolve_left hbase
    obtain ⟨k, hkE⟩ : ∃ k, k = c.encoderBase ^ c.encoderPrecision := ⟨_, rfl⟩
    rw [← hkE] at hk ⊢
    have h3 : (2 : Nat) ^ w = 2 * 2 ^ (w - 1) := by rw [← pow_succ']; congr 1; omega
    have hkt : (BitVec.ofNat w k).toInt = (k : Int) := by
      rw [BitVec.toInt_ofNat']
      apply Int.bmod_eq_of_le_mul_two
      · omega
      · push_cast [h3]; have : (k : Int) < 2 ^ (w - 1) := by exact_mod_cast hk.2
        omega
    have key : ∀ x : BitVec w, (floordiv x (BitVec.ofNat w k)).toInt = x.toInt.tdiv k := by
      intro x
      unfold floordiv
      rw [BitVec.toInt_sdiv_of_ne_or_ne, hkt]
      right
      intro h
      rw [h] at hkt
      have : (-1#w).toInt < 0 := by
        rw [BitVec.neg_one_eq_allOnes, BitVec.toInt_allOnes, if_pos hw]; norm_num
      omega
    have hb : ∀ x : BitVec w, 2 ≤ k → -(2 ^ (w - 1) : Int) ≤ 2 * x.toInt.tdiv k ∧ 2 * x.toInt.tdiv k < 2 ^ (w - 1) := by
      intro x h2k
      have hx := toInt_bounds' hw x
      obtain ⟨r, e, e1, e2⟩ := tdiv_rem x.toInt k (by omega)
      generalize x.toInt.tdiv k = d at *
      have hp : (0 : Int) < 2 ^ (w - 1) := by positivity
      have h2k' : (2 : Int) ≤ k := by exact_mod_cast h2k
      rcases le_total 0 x.toInt with h | h
      · have := e1 h
        have hd : 0 ≤ d := by by_contra hd; nlinarith
        constructor <;> nlinarith
      · have := e2 h
        have hd : d ≤ 0 := by by_contra hd; nlinarith
        constructor <;> nlinarith
    rw [toInt_add_of hw _ _, key, key]
    all_goals rw [key, key]
    all_goals
      rcases Nat.lt_or_ge k 2 with h | h
      · obtain rfl : k = 1 := by omega
        simp only [Nat.cast_one, Int.tdiv_one]; assumption
      · have ha := hb a h
        have hb := hb b h
        omega

/-- **C32.** `ABY3.truncate` of a consistent replicated tensor in a ring `2**w`, for every mask: it does not fail, the result is
a consistent sharing, and it opens to the local quotient of the value (rounded down for base 2, toward zero for other
bases), up to one quantum, provided the two summands the parties divide do not wrap. -/
theorem C32_truncate (w : Nat) (hw : w = 8 ∨ w = 16 ∨ w = 32 ∨ w = 64) {env : Env} {s : Session} (hs : s.Three env)
    {x : RMPC (BitVec w)} {c' : Config} {sh : Nat → BitVec w} (hx : x.Rep3 s (2 ^ w) c' sh) (c : Config) (hc : ScaleFits w c)
    (h1 : -(2 ^ (w - 1) : Int) ≤ (sh 0).toInt + (sh 1 + sh 2).toInt)
    (h2 : (sh 0).toInt + (sh 1 + sh 2).toInt < 2 ^ (w - 1)) (r : BitVec w) :
    ∃ z e, ABY3.truncate (powKit w) x s (2 ^ w) c r = .ok z ∧ z.Is (powSem w) s (2 ^ w) c e ∧
      z.reconstruct (powOps w) = .ok e ∧ |e.toInt - localQuot c (sh 0 + sh 1 + sh 2).toInt| ≤ 1 := by
  obtain ⟨z, h3, h4⟩ := truncate3 hs (powKitSem w hw) hx (fun _ => trivial) c r trivial
  have hq : ¬ ((powKit w).size = 2 ∨ (powKit w).size = primeNumber) := by
    show ¬ (2 ^ w = 2 ∨ 2 ^ w = 67)
    rcases hw with rfl | rfl | rfl | rfl <;> norm_num
  rw [if_neg hq] at h4
  obtain ⟨e, h5, -, h6⟩ := is_reconstruct hs h4
  have hE : e = shiftPow w c (sh 0) + shiftPow w c (sh 1 + sh 2) := h6
  refine ⟨z, e, h3, ?_, h5, ?_⟩
  · rw [hE]; exact h4
  · have hw' : 0 < w := by omega
    rw [hE, shiftPow_sum w (by omega) c hc _ _ h1 h2, add_assoc, toInt_add_of hw' _ _ h1 h2]
    exact localQuot_add w c hc _ _

/-- **C32** for the default base 2, more exactly: rounded down, or one less. -/
theorem C32_truncate_base2 (w : Nat) (hw : w = 8 ∨ w = 16 ∨ w = 32 ∨ w = 64) {env : Env} {s : Session} (hs : s.Three env)
    {x : RMPC (BitVec w)} {c' : Config} {sh : Nat → BitVec w} (hx : x.Rep3 s (2 ^ w) c' sh) (c : Config)
    (hc : c.encoderBase = 2) (h1 : -(2 ^ (w - 1) : Int) ≤ (sh 0).toInt + (sh 1 + sh 2).toInt)
    (h2 : (sh 0).toInt + (sh 1 + sh 2).toInt < 2 ^ (w - 1)) (r : BitVec w) :
    ∃ z e, ABY3.truncate (powKit w) x s (2 ^ w) c r = .ok z ∧ z.reconstruct (powOps w) = .ok e ∧
      (e.toInt = (sh 0 + sh 1 + sh 2).toInt / 2 ^ c.encoderPrecision ∨
        e.toInt = (sh 0 + sh 1 + sh 2).toInt / 2 ^ c.encoderPrecision - 1) := by
  obtain ⟨z, h3, h4⟩ := truncate3 hs (powKitSem w hw) hx (fun _ => trivial) c r trivial
  have hq : ¬ ((powKit w).size = 2 ∨ (powKit w).size = primeNumber) := by
    show ¬ (2 ^ w = 2 ∨ 2 ^ w = 67)
    rcases hw with rfl | rfl | rfl | rfl <;> norm_num
  rw [if_neg hq] at h4
  obtain ⟨e, h5, -, h6⟩ := is_reconstruct hs h4
  have hE : e = shiftPow w c (sh 0) + shiftPow w c (sh 1 + sh 2) := h6
  refine ⟨z, e, h3, h5, ?_⟩
  have hw' : 0 < w := by omega
  rw [hE, shiftPow_sum w (by omega) c (.inl hc) _ _ h1 h2, add_assoc, toInt_add_of hw' _ _ h1 h2]
  unfold localQuot
  simp only [if_pos hc]
  exact floor_add _ _ _ (by positivity)

/-- **C32**, when the condition holds: the two summands of a value `t` wrap exactly if the first share lies in the `t + 1`
lowest places (`t` not negative) or the `-t - 1` highest places (`t` negative) of the range. -/
theorem C32_wraps_iff (w : Nat) (hw : 0 < w) (a t : BitVec w) :
    (-(2 ^ (w - 1) : Int) ≤ a.toInt + (t - a).toInt ∧ a.toInt + (t - a).toInt < 2 ^ (w - 1)) ↔
      (0 ≤ t.toInt → t.toInt - 2 ^ (w - 1) < a.toInt) ∧ (t.toInt < 0 → a.toInt ≤ t.toInt + 2 ^ (w - 1)) := by
  have ha := toInt_bounds' hw a
  have ht := toInt_bounds' hw t
  have hb := toInt_bounds' hw (t - a)
  have h3 : ((2 ^ w : Nat) : Int) = 2 * 2 ^ (w - 1) := by
    rw [Nat.cast_pow, Nat.cast_ofNat, ← pow_succ']; congr 1; omega
  have hs : ∃ j : Int, (t - a).toInt = t.toInt - a.toInt + ((2 ^ w : Nat) : Int) * j := by
    rw [BitVec.toInt_sub]
    have := Int.bmod_add_bdiv (t.toInt - a.toInt) (2 ^ w)
    exact ⟨-(t.toInt - a.toInt).bdiv (2 ^ w), by linarith⟩
  obtain ⟨j, hj⟩ := hs
  rw [h3] at hj
  generalize a.toInt = x at *
  generalize t.toInt = y at *
  generalize (t - a).toInt = d at *
  have hp : (0 : Int) < 2 ^ (w - 1) := by positivity
  generalize (2 : Int) ^ (w - 1) = H at *
  have hj' : j = 0 ∨ 1 ≤ j ∨ j ≤ -1 := by omega
  rcases hj' with rfl | h | h
  · constructor
    · intro _; constructor <;> intro _ <;> omega
    · intro _; constructor <;> omega
  · constructor
    · rintro ⟨k1, k2⟩; nlinarith
    · rintro ⟨k1, k2⟩
      exfalso
      have : 2 * H * 1 ≤ 2 * H * j := by nlinarith
      omega
  · constructor
    · rintro ⟨k1, k2⟩; nlinarith
    · rintro ⟨k1, k2⟩
      exfalso
      have : 2 * H * j ≤ 2 * H * (-1) := by nlinarith
      omega

/-- **C32**: the condition is needed: a consistent sharing of 0 with the default configuration whose truncation opens to
`-2**48`. -/
theorem C32_wrap_witness : ∃ (x : RMPC I64), x.Is (powSem 64) exRSession (2 ^ 64) {} 0 ∧
    ∀ r : I64, ∃ z, ABY3.truncate (powKit 64) x exRSession (2 ^ 64) {} r = .ok z ∧
      (z.reconstruct (powOps 64)).toOption.map BitVec.toInt = some (-2 ^ 48) := by
  refine ⟨exRep (2 ^ 64) {} 0x8000000000000000 0x8000000000000000 0, exRep_is (powSem 64) _ _ _ _ _ trivial trivial trivial, ?_⟩
  intro r
  have h := (exRep_is (powSem 64) (2 ^ 64) {} 0x8000000000000000 0x8000000000000000 0 trivial trivial trivial)
  obtain ⟨z, h3, h4⟩ := truncate3 exRThree (powKitSem 64 (by simp))
    (rep3_of_list (s := exRSession) (u0 := 100) (u1 := 101) (u2 := 102) rfl (2 ^ 64) {} (0x8000000000000000 : I64)
      0x8000000000000000 0) (fun _ => trivial) {} r trivial
  rw [if_neg (by decide)] at h4
  obtain ⟨e, h5, -, h6⟩ := is_reconstruct exRThree h4
  refine ⟨z, h3, ?_⟩
  have hE : e = shiftPow 64 {} 0x8000000000000000 + shiftPow 64 {} (0x8000000000000000 + 0) := h6
  have h5' : z.reconstruct (powOps 64) = .ok e := h5
  rw [h5', hE]
  decide +kernel

/-- 5.5 truncated by 16 bits, shared -/
example : (0 : Int) ≤ (327680 : I64).toInt ∧ (ABY3.truncate (powKit 64) (exRep (2 ^ 64) {} 360448 (-1000) 1000) exRSession (2 ^ 64) {}
    77).toOption.map (fun z => (z.reconstruct (powOps 64)).toOption) = some (some 5) := by decide +kernel

/-! ## Products of scaled tensors -/

variable {A B C RA RB RC : Type} [CommRing RA] [CommRing RB] [CommRing RC]

/-- the product of two secrets, truncation included, with either security type -/
theorem mulMaster3 [DecidableEq A] [DecidableEq B] [DecidableEq C] {env : Env} {s : Session} (hs : s.Three env)
    {KA : RingKit A} {KB : RingKit B} {KC : RingKit C} {SA : RingSem KA.ops RA} {SB : RingSem KB.ops RB}
    (SC : RingSem KC.ops RC) (hK : KitSem KC SC) {P : Product A B C} {β : RA →+ RB →+ RC} (hP : ProdSem SA SB SC P β)
    {x : RMPC A} {y : RMPC B} {c c' : Config} {v : RA} {w : RB} (hx : x.Is SA s KC.size c v) (hy : y.Is SB s KC.size c' w)
    (hq : ¬ (KC.size = 2 ∨ KC.size = primeNumber)) {k : OpKind} (hop : getOp KC.size P.opStr = .ok k) {rnd : MulRand A B C}
    (hr : rnd.Ok SA SB SC β s KC.size) :
    ∃ z0 z1 z2 z, Falcon.mulShares KC.ops env P rnd.mask s x y = .ok [z0, z1, z2] ∧ SC.Valid z0 ∧ SC.Valid z1 ∧ SC.Valid z2 ∧
      SC.den z0 + SC.den z1 + SC.den z2 = β v w ∧ Falcon.mulMaster KA KB KC env P rnd x y = .ok z ∧
      z.Is SC s KC.size c (SC.den (KC.shift c z0) + SC.den (KC.shift c (KC.ops.add z1 z2))) := by
  obtain ⟨u0, u1, u2, p0, p1, p2, c0, c1, c2, hu, hcc, -⟩ := three_unpack hs
  have hxs : x.session = s := hx.choose_spec.1.session
  have hys : y.session = s := hy.choose_spec.1.session
  have hi : RST.initConfig c KC.size = c := by unfold RST.initConfig; rw [if_neg hq]
  obtain ⟨z0, z1, z2, hz, v0, v1, v2, hsum⟩ := mulShares3 hs SC hP hx hy hop rnd.mask hr.mask.1
  rw [hr.mask.2, add_zero] at hsum
  obtain ⟨ps, hp1, hp2, hp3⟩ := first_share hs hx
  cases hsec : s.protocol.security with
  | semiHonest =>
    obtain ⟨z, t1, t2⟩ := truncateRaw3 hs hK z0 z1 z2 v0 v1 v2 c rnd.trunc hr.trunc
    rw [if_neg hq, hi] at t2
    refine ⟨z0, z1, z2, z, hz, v0, v1, v2, hsum, ?_, t2⟩
    unfold Falcon.mulMaster
    rw [hxs, hys, checkPrivate_self, ok_bind, if_neg (by rw [hcc]; simp), hp1, ok_bind, hsec]
    simp only [hp2, hp3, hz, ok_bind, t1]
  | malicious =>
    obtain ⟨zr, hr0, hr2⟩ := C29_product hs SC hP hx hy hop rnd.mask hr.mask KC.size c
    have hh : Falcon.mulReshare KC.ops env P rnd.mask s KC.size c x y = .ok ⟨s,
        [⟨[z0, z1], some u0, c, KC.size⟩, ⟨[z1, z2], some u1, c, KC.size⟩, ⟨[z2, z0], some u2, c, KC.size⟩]⟩ := by
      unfold Falcon.mulReshare
      rw [hz, ok_bind, hxs, distribute3 hs hu, ok_bind, rofShares3 hs, hi]
    have hr1 : Falcon.mulMalicious KA KB KC env P rnd s KC.size c x y = .ok zr := by
      unfold Falcon.mulMalicious
      rw [hr0, ok_bind]
      exact (C31_verification hs SC hK hP hx hy hr2 hop _ 0 (hr.triple hsec)).1 (sub_self _)
    have hzr : zr = ⟨s, [⟨[z0, z1], some u0, c, KC.size⟩, ⟨[z1, z2], some u1, c, KC.size⟩, ⟨[z2, z0], some u2, c, KC.size⟩]⟩ := by
      rw [hr0] at hh; exact Except.ok.inj hh
    obtain ⟨z, t1, t2⟩ := truncate3 hs hK (x := zr) (c := c) (sh := fun i => if i = 0 then z0 else if i = 1 then z1 else z2)
      (by rw [hzr]; exact rep3_of_list hu _ _ _ _ _) (by
        intro i; show SC.Valid (if _ then _ else _); split
        · exact v0
        · split
          · exact v1
          · exact v2) c rnd.trunc hr.trunc
    rw [if_neg hq] at t2
    refine ⟨z0, z1, z2, z, hz, v0, v1, v2, hsum, ?_, t2⟩
    unfold Falcon.mulMaster
    rw [hxs, hys, checkPrivate_self, ok_bind, if_neg (by rw [hcc]; simp), hp1, ok_bind, hsec]
    simp only [hp2, hp3, hr1, ok_bind, t1]

/-- **C32** in `x * y` of two secrets (either security type, a ring `2**w`, any configuration whose scale fits): the opened
result is the truncated product of the encoded values, up to one quantum, if the two summands of the product do not wrap. -/
theorem C32_product (w : Nat) (hw : w = 8 ∨ w = 16 ∨ w = 32 ∨ w = 64) {env : Env} {s : Session} (hs : s.Three env)
    {x y : RMPC (BitVec w)} {c c' : Config} {a b : BitVec w} (hx : x.Is (powSem w) s (2 ^ w) c a)
    (hy : y.Is (powSem w) s (2 ^ w) c' b) (hc : ScaleFits w c) {rnd : MulRand (BitVec w) (BitVec w) (BitVec w)}
    (hr : rnd.Ok (powSem w) (powSem w) (powSem w) AddMonoidHom.mul s (2 ^ w)) :
    ∃ z0 z12 z e, z0 + z12 = a * b ∧ RMPC.mulPrivate (powKit w) env rnd x y = .ok z ∧
      z.Is (powSem w) s (2 ^ w) c e ∧ z.reconstruct (powOps w) = .ok e ∧
      (-(2 ^ (w - 1) : Int) ≤ z0.toInt + z12.toInt → z0.toInt + z12.toInt < 2 ^ (w - 1) →
        |e.toInt - localQuot c (a * b).toInt| ≤ 1) ∧
      (∃ z1 z2, z12 = z1 + z2 ∧ Falcon.mulShares (powOps w) env (powKit w).product rnd.mask s x y = .ok [z0, z1, z2]) := by
  have hq : ¬ ((powKit w).size = 2 ∨ (powKit w).size = primeNumber) := by
    show ¬ (2 ^ w = 2 ∨ 2 ^ w = 67)
    rcases hw with rfl | rfl | rfl | rfl <;> norm_num
  have hop : ∃ k, getOp (2 ^ w) .mul = .ok k := by rcases hw with rfl | rfl | rfl | rfl <;> exact ⟨_, rfl⟩
  obtain ⟨k, hk⟩ := hop
  obtain ⟨z0, z1, z2, z, h1, -, -, -, h2, h3, h4⟩ := mulMaster3 (KA := powKit w) (KB := powKit w) (KC := powKit w)
    (P := (powKit w).product) hs (powSem w) (powKitSem w hw) (product_sem (K := powKit w) (powSem w)) hx hy hq hk hr
  obtain ⟨e, h5, -, h6⟩ := is_reconstruct hs h4
  have hE : e = shiftPow w c z0 + shiftPow w c (z1 + z2) := h6
  have hab : z0 + (z1 + z2) = a * b := by rw [← add_assoc]; exact h2
  refine ⟨z0, z1 + z2, z, e, hab, h3, ?_, h5, ?_, z1, z2, rfl, h1⟩
  · rw [hE]; exact h4
  · intro k1 k2
    have hw' : 0 < w := by omega
    rw [hE, shiftPow_sum w (by omega) c hc _ _ k1 k2, ← hab, toInt_add_of hw' _ _ k1 k2]
    exact localQuot_add w c hc _ _

/-- 1.5 * (-2) in the example session; the result is one quantum low -/
example : (RMPC.mulPrivate (powKit 64) exREnv
    { mask := fun i => if i = 0 then 5 else if i = 1 then -3 else -2
      triple := exTriple (2 ^ 64) (fun i => BitVec.ofNat 64 i) (fun _ => 4) (fun i => if i = 0 then 30 else 3), trunc := 9 }
    (exRep (2 ^ 64) {} 98304 (-5) 5) (exRep (2 ^ 64) {} (-131072) 2 (-2))).toOption.map
      (fun z => (z.reconstruct (powOps 64)).toOption) = some (some (-196609)) := by decide +kernel

end SyMPC
