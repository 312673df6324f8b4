import Verif.Model.Wraps
import Verif.Lemmas.Float32
import Verif.Lemmas.Spdz
import Verif.Lemmas.Encoder
import Verif.Props.Share
import Mathlib.Tactic.Linarith
import Mathlib.Tactic.LinearCombination

/-! # Lemmas on wrap-arounds and division -/

namespace SyMPC

/-- the integer sum and the ring sum of two int64 values -/
theorem toInt_add_cases (a b : I64) :
    (a + b).toInt = a.toInt + b.toInt
      - 2 ^ 64 * (if 2 ^ 63 ≤ a.toInt + b.toInt then 1 else if a.toInt + b.toInt < -2 ^ 63 then -1 else 0) := by
  have ha := toInt_bounds a
  have hb := toInt_bounds b
  rw [BitVec.toInt_add]
  generalize a.toInt = x at *
  generalize b.toInt = y at *
  unfold Int.bmod
  dsimp only
  split_ifs <;> omega

theorem toInt_intMin : (BitVec.intMin 64).toInt = -2 ^ 63 := by decide

theorem eq_intMin_iff (a : I64) : a = BitVec.intMin 64 ↔ a.toInt = -2 ^ 63 := by
  constructor
  · rintro rfl; exact toInt_intMin
  · intro h
    apply BitVec.eq_of_toInt_eq
    rw [h, toInt_intMin]

/-- number of steps at which `-2^63` is added to `-2^63` -/
def minPairs (prev : I64) : List I64 → Nat
  | [] => 0
  | cur :: rest => (if prev = BitVec.intMin 64 ∧ cur = BitVec.intMin 64 then 1 else 0) + minPairs (cur + prev) rest

theorem countWrapsFrom_spec (l : List I64) (prev res : I64) :
    ∃ w : Int, countWrapsFrom prev res l = res + BitVec.ofInt 64 w ∧
      prev.toInt + (l.map BitVec.toInt).sum = (prev + l.sum).toInt + (w - minPairs prev l) * 2 ^ 64 ∧
      |w| ≤ l.length := by
  induction l generalizing prev res with
  | nil => exact ⟨0, by simp [countWrapsFrom], by simp [minPairs], by simp⟩
  | cons cur rest ih =>
    unfold countWrapsFrom
    dsimp only
    obtain ⟨w, h1, h2, h3⟩ := ih (cur + prev) (res - (if prev.toInt < 0 ∧ cur.toInt < 0 ∧ 0 < (cur + prev).toInt then 1 else 0)
      + (if 0 < prev.toInt ∧ 0 < cur.toInt ∧ (cur + prev).toInt < 0 then 1 else 0))
    have hc := toInt_add_cases cur prev
    have b1 := toInt_bounds prev
    have b2 := toInt_bounds cur
    refine ⟨w - (if prev.toInt < 0 ∧ cur.toInt < 0 ∧ 0 < (cur + prev).toInt then 1 else 0)
      + (if 0 < prev.toInt ∧ 0 < cur.toInt ∧ (cur + prev).toInt < 0 then 1 else 0), ?_, ?_, ?_⟩
    · rw [h1, BitVec.ofInt_add, sub_eq_add_neg w, BitVec.ofInt_add, BitVec.ofInt_neg]
      have i0 : BitVec.ofInt 64 0 = 0 := by decide
      have i1 : BitVec.ofInt 64 1 = 1 := by decide
      split <;> split <;> simp only [i0, i1] <;> ring
    · rw [List.map_cons, List.sum_cons, List.sum_cons, minPairs]
      have hassoc : prev + (cur + rest.sum) = cur + prev + rest.sum := by ring
      rw [hassoc]
      simp only [eq_intMin_iff]
      generalize (cur + prev + rest.sum).toInt = V at *
      generalize (rest.map BitVec.toInt).sum = S at *
      generalize minPairs (cur + prev) rest = m at *
      generalize (cur + prev).toInt = c at *
      generalize prev.toInt = x at *
      generalize cur.toInt = y at *
      simp only [Nat.cast_add, Nat.cast_ite, Nat.cast_one, Nat.cast_zero]
      have key : x + y = c + ((if 0 < x ∧ 0 < y ∧ c < 0 then 1 else 0) - (if x < 0 ∧ y < 0 ∧ 0 < c then 1 else 0)
          - (if x = -2 ^ 63 ∧ y = -2 ^ 63 then 1 else 0)) * 2 ^ 64 := by
        rw [hc]
        clear h1 h2 h3
        split_ifs at * <;> omega
      linear_combination h2 + key
    · rw [List.length_cons]
      push_cast
      rw [abs_le] at *
      split <;> split <;> omega

/-- `count_wraps` never adds `-2^63` to `-2^63`: no share of that value follows shares that add up to that value. -/
def NoMinPair (l : List I64) : Prop :=
  ∀ l₁ m l₂, l = l₁ ++ m :: l₂ → l₁ ≠ [] → ¬ (l₁.sum = BitVec.intMin 64 ∧ m = BitVec.intMin 64)

theorem minPairs_zero (l : List I64) (pre : List I64) (hpre : pre ≠ []) (h : NoMinPair (pre ++ l)) :
    minPairs pre.sum l = 0 := by
  induction l generalizing pre with
  | nil => rfl
  | cons a l ih =>
    rw [minPairs, if_neg (h pre a l rfl hpre), zero_add]
    have := ih (pre ++ [a]) (by simp) (by simpa using h)
    rwa [List.sum_append, List.sum_singleton, add_comm] at this

/-- exactness of `count_wraps` away from the pair `-2^63, -2^63` -/
theorem countWraps_exact (l : List I64) (hne : l ≠ []) (h : NoMinPair l) :
    ∃ w : Int, countWraps l = .ok (BitVec.ofInt 64 w) ∧
      (l.map BitVec.toInt).sum = l.sum.toInt + w * 2 ^ 64 ∧ |w| < l.length := by
  cases l with
  | nil => exact absurd rfl hne
  | cons a l =>
    obtain ⟨w, h1, h2, h3⟩ := countWrapsFrom_spec l a 0
    have hm : minPairs a l = 0 := by
      have := minPairs_zero l [a] (by simp) (by simpa using h)
      simpa using this
    refine ⟨w, ?_, ?_, ?_⟩
    · unfold countWraps
      dsimp only
      rw [h1, zero_add]
    · rw [hm] at h2
      rw [List.map_cons, List.sum_cons, List.sum_cons, h2]
      push_cast; ring
    · rw [List.length_cons]
      push_cast; omega

/-! ## quotients -/

theorem toInt_floordiv (x : I64) (d : Int) (h1 : 0 < d) (h2 : d < 2 ^ 63) :
    (floordiv x (BitVec.ofInt 64 d)).toInt = x.toInt.tdiv d := by
  have hd : (BitVec.ofInt 64 d).toInt = d := toInt_ofInt64 (by omega) h2
  unfold floordiv
  rw [BitVec.toInt_sdiv_of_ne_or_ne, hd]
  right
  intro h
  have := congrArg BitVec.toInt h
  rw [hd] at this
  have h2 : (-1#64 : BitVec 64).toInt = -1 := by decide
  omega

/-- the rounding error of one quotient, with its sign -/
theorem tdiv_rem (a d : Int) (hd : 0 < d) :
    ∃ r, a = d * a.tdiv d + r ∧ (0 ≤ a → 0 ≤ r ∧ r < d) ∧ (a ≤ 0 → -d < r ∧ r ≤ 0) := by
  refine ⟨a.tmod d, (Int.mul_tdiv_add_tmod a d).symm, ?_, ?_⟩
  · intro h
    exact ⟨Int.tmod_nonneg d h, Int.tmod_lt_of_pos a hd⟩
  · intro h
    have h1 := Int.tmod_nonneg d (a := -a) (by omega)
    have h2 := Int.tmod_lt_of_pos (-a) hd
    rw [Int.neg_tmod] at h1 h2
    omega

theorem tdiv_rem' (a d : Int) (hd : 0 < d) : |d * a.tdiv d - a| < d := by
  obtain ⟨r, h, h1, h2⟩ := tdiv_rem a d hd
  rw [abs_lt]
  rcases le_total 0 a with ha | ha
  · have := h1 ha
    constructor <;> linarith
  · have := h2 ha
    constructor <;> linarith

theorem sum_tdiv_rem (l : List Int) (d : Int) (hd : 0 < d) :
    |d * (l.map (·.tdiv d)).sum - l.sum| ≤ l.length * (d - 1) := by
  induction l with
  | nil => simp
  | cons a l ih =>
    have := tdiv_rem' a d hd
    rw [List.map_cons, List.sum_cons, List.sum_cons, List.length_cons]
    push_cast
    rw [abs_le] at *
    rw [abs_lt] at this
    constructor <;> nlinarith

/-! ## the run of `public_divide` with three or more parties -/

/-- what `public_divide` computes, in the ring -/
theorem divide_core (fl : ℚ → ℚ) (env : Env) (s : Session) (hs : s.Live env) (n : Nat) (hn : s.nrParties = n + 3)
    (rnd : WrapRand) (x : MPCTensor I64) (hx : x.WF env) (hxs : x.session = s) (d : Int) :
    ∃ (res x' : MPCTensor I64) (bs : List I64) (wr wz : I64),
      let rs := (List.range (n + 3)).map (shareTensorOf rnd.r (n + 1) rnd.dr)
      let xs := x.shares.map (·.tensor)
      publicDivide fl env rnd x d = .ok (res, x') ∧ res.WF env ∧ res.session = s ∧ x'.WF env ∧ x'.session = s ∧
      res.shares.tail = x'.shares.tail ∧
      x'.shares.map (·.tensor) = xs.map (floordiv · (BitVec.ofInt 64 d)) ∧
      (xs.zip rs).mapM (fun p => countWraps [p.1, p.2]) = .ok bs ∧ countWraps rs = .ok wr ∧
      countWraps (List.zipWith (· + ·) rs xs) = .ok wz ∧
      res.reconstruct = .ok ((xs.map (floordiv · (BitVec.ofInt 64 d))).sum
        - PubEnc.enc s.config (wrapCorrection fl s.config s.ringSize (bs.sum - wr + wz) d)) := by
  have h2 := hs.two
  have hlx : x.shares.length = s.nrParties := by
    have := congrArg List.length hx.tags
    simpa [hxs, hs.ranks] using this
  let X : Nat → ShareTensor I64 := fun r => x.shares.getD r ⟨0, none, {}, 0⟩
  let U : Nat → Nat := fun r => s.rankToUuid.getD r 0
  have hX : x.shares = (List.range (n + 3)).map X := list_eq_map_range _ _ _ (by rw [hlx, hn])
  have hU : s.rankToUuid = (List.range (n + 3)).map U := list_eq_map_range 0 _ _ (by rw [hs.ranks, hn])
  have hUr : ∀ r < n + 3, s.rankToUuid[r]? = some (U r) := by
    intro r hr
    have := congrArg (fun l : List Nat => l[r]?) hU
    simpa [hr] using this
  have htX : ∀ r < n + 3, (X r).sessionUuid = some (U r) := by
    intro r hr
    have h := hx.tags
    rw [hxs, hX, hU, List.map_map, List.map_map] at h
    have := congrArg (fun l => l[r]?) h
    simpa [hr] using this
  have hP : ∀ r, ∃ p : PartySession, r < n + 3 →
      env (U r) = some p ∧ p.rank = r ∧ p.config = s.config ∧ p.ringSize = s.ringSize := by
    intro r
    by_cases hr : r < n + 3
    · obtain ⟨p, hp, hp1, hp2⟩ := hs.ranked r (U r) (hUr r hr)
      obtain ⟨p', hp', hc, hri⟩ := hs.known (U r) (List.mem_of_getElem? (hUr r hr))
      rw [hp] at hp'
      cases hp'
      exact ⟨p, fun _ => ⟨hp, hp1, hc, hri⟩⟩
    · exact ⟨⟨0, 0, 0, {}, 0, .int64, fssProtocol, 0, 0⟩, fun h => absurd h hr⟩
  choose P hP using hP
  let R : Nat → I64 := shareTensorOf rnd.r (n + 1) rnd.dr
  let c0 : Config := { encoderPrecision := 0 }
  obtain ⟨wr, hwr⟩ : ∃ wr, countWraps ((List.range (n + 3)).map R) = .ok wr := by
    cases h : (List.range (n + 3)).map R with
    | nil => simp at h
    | cons a l => exact ⟨_, rfl⟩
  obtain ⟨wz, hwz⟩ : ∃ wz, countWraps ((List.range (n + 3)).map fun r => R r + (X r).tensor) = .ok wz := by
    cases h : (List.range (n + 3)).map fun r => R r + (X r).tensor with
    | nil => simp at h
    | cons a l => exact ⟨_, rfl⟩
  let T : Nat → I64 := shareTensorOf wr (n + 1) rnd.dt
  have hprim : countWrapsRand env (n + 3) rnd
      = .ok ((List.range (n + 3)).map fun r => (⟨R r, none, c0, 2 ^ 64⟩, ⟨T r, none, c0, 2 ^ 64⟩)) := by
    unfold countWrapsRand
    dsimp only
    rw [generateShares_eq env ⟨rnd.r, none, _, _⟩ rfl, ok_bind]
    have e1 : (sharesOf (⟨rnd.r, none, c0, 2 ^ 64⟩ : ShareTensor I64) (n + 1) rnd.dr).map (·.tensor) = (List.range (n + 3)).map R := by
      simp only [sharesOf, ite_self, List.map_map]
      rfl
    rw [e1, hwr, ok_bind, generateShares_eq env ⟨wr, none, _, _⟩ rfl, ok_bind, pure_eq_ok]
    simp only [sharesOf, ite_self]
    rw [List.zip_map']
    rfl
  have hdist : ShareTensor.distributeShares s ((List.range (n + 3)).map fun r => (⟨R r, none, c0, 2 ^ 64⟩ : ShareTensor I64))
      = .ok ((List.range (n + 3)).map fun r => ⟨R r, some (U r), c0, 2 ^ 64⟩) := by
    rw [distributeShares_eq s _ (by simp [hs.ranks, hn]) (by rw [hs.parties, hs.ranks]), hU, List.zipWith_map]
    simp [List.zipWith_self]
  have hadd : MPCTensor.applyPrivateLin (P := Empty) env .add
        ⟨s, (List.range (n + 3)).map fun r => ⟨R r, some (U r), c0, 2 ^ 64⟩⟩ x
      = .ok ⟨s, (List.range (n + 3)).map fun r => ⟨R r + (X r).tensor, some (U r), (P r).config, (P r).ringSize⟩⟩ := by
    unfold MPCTensor.applyPrivateLin MPCTensor.checkPrivate
    rw [hxs]
    simp only [ne_eq, not_true_eq_false, if_false, ok_bind]
    rw [hX, List.zip_map', List.mapM_map, mapM_ok _ (fun r => ⟨R r + (X r).tensor, some (U r), (P r).config, (P r).ringSize⟩)]
    · rw [ok_bind, ofShares_ok _ _ hs.ptrs (by simp)]
    · intro r hr
      have hr := List.mem_range.mp hr
      simp only [Function.comp]
      exact shareOp_priv env .add _ _ (U r) (P r) rfl (htX r hr) (hP r hr).1
  let B : Nat → I64 := fun r => countWrapsFrom (X r).tensor 0 [R r]
  have hdw : ∀ r < n + 3, divWraps env ⟨R r, some (U r), c0, 2 ^ 64⟩ ⟨T r, none, c0, 2 ^ 64⟩ (X r)
      (((List.range (n + 3)).map fun r => (⟨R r + (X r).tensor, some (U r), (P r).config, (P r).ringSize⟩ : ShareTensor I64)).map (·.tensor)) d
      = .ok (⟨B r - T r + (if r = 0 then wz else 0), none, c0, 2 ^ 64⟩,
        { X r with tensor := floordiv (X r).tensor (BitVec.ofInt 64 d) }) := by
    intro r hr
    unfold divWraps
    simp only [(hP r hr).1, (hP r hr).2.1, ok_bind]
    rw [List.map_map]
    rw [show countWraps [(X r).tensor, R r] = .ok (B r) from rfl, ok_bind]
    by_cases h0 : r = 0
    · rw [if_pos h0, if_pos (by exact_mod_cast h0)]
      rw [show (List.range (n + 3)).map ((fun x : ShareTensor I64 => x.tensor) ∘ fun r => ⟨R r + (X r).tensor, some (U r), (P r).config, (P r).ringSize⟩)
        = (List.range (n + 3)).map fun r => R r + (X r).tensor from rfl, hwz, ok_bind]
      rfl
    · rw [if_neg h0, if_neg (by exact_mod_cast h0), ok_bind]
      rfl
  let x' : MPCTensor I64 := ⟨s, (List.range (n + 3)).map fun r => { X r with tensor := floordiv (X r).tensor (BitVec.ofInt 64 d) }⟩
  have hx' : x'.WF env := by
    refine ⟨hs.toReady, ?_⟩
    change List.map _ (List.map _ _) = List.map _ s.rankToUuid
    rw [hU, List.map_map, List.map_map]
    apply List.map_congr_left
    intro r hr
    exact htX r (List.mem_range.mp hr)
  have hx'r : x'.reconstruct = .ok ((x.shares.map (·.tensor)).map (floordiv · (BitVec.ofInt 64 d))).sum := by
    rw [WF.reconstruct hx', hX]
    congr 2
    simp only [x', List.map_map]
    rfl
  have htheta : ShareTensor.reconstruct ((List.range (n + 3)).map fun r =>
      (⟨B r - T r + (if r = 0 then wz else 0), none, c0, 2 ^ 64⟩ : ShareTensor I64))
      = .ok (((List.range (n + 3)).map B).sum - wr + wz) := by
    rw [reconstruct_eq_sum _ (by simp), List.map_map]
    congr 1
    change ((List.range (n + 3)).map fun r => B r - T r + (if r = 0 then wz else 0)).sum = _
    rw [sum_range_list, sum_range_list, Finset.sum_add_distrib, Finset.sum_sub_distrib]
    congr 1
    · congr 1
      exact sum_shareTensorOf wr (n + 1) rnd.dt
    · rw [Finset.sum_ite_eq', if_pos (by simp)]
  obtain ⟨res, hres, hresS, hresWF, htail, hresV⟩ := pub_ok env .sub x'
    (wrapCorrection fl s.config s.ringSize (((List.range (n + 3)).map B).sum - wr + wz) d) hx' _ hx'r
  refine ⟨res, x', (List.range (n + 3)).map B, wr, wz, ?_, hresWF, hresS, hx', rfl, htail, ?_, ?_, hwr, ?_, ?_⟩
  · unfold publicDivide
    dsimp only
    rw [hxs, if_neg (by omega), hn, hprim, ok_bind, List.map_map, List.map_map]
    change (ShareTensor.distributeShares s ((List.range (n + 3)).map fun r => (⟨R r, none, c0, 2 ^ 64⟩ : ShareTensor I64)) >>= _) = _
    rw [hdist, ok_bind, ofShares_ok s _ hs.ptrs (by simp), ok_bind, hadd, ok_bind]
    dsimp only
    have hz : ((List.range (n + 3)).map fun r => (⟨R r, some (U r), c0, 2 ^ 64⟩ : ShareTensor I64)).zip
        (((List.range (n + 3)).map ((fun p : ShareTensor I64 × ShareTensor I64 => p.2) ∘ fun r => (⟨R r, none, c0, 2 ^ 64⟩, ⟨T r, none, c0, 2 ^ 64⟩))).zip x.shares)
        = (List.range (n + 3)).map fun r => (⟨R r, some (U r), c0, 2 ^ 64⟩, ⟨T r, none, c0, 2 ^ 64⟩, X r) := by
      rw [hX, List.zip_map', List.zip_map']
      rfl
    rw [hz, List.mapM_map, mapM_ok _ (fun r => (⟨B r - T r + (if r = 0 then wz else 0), none, c0, 2 ^ 64⟩,
        { X r with tensor := floordiv (X r).tensor (BitVec.ofInt 64 d) }))]
    · rw [ok_bind, List.map_map, List.map_map]
      change (ShareTensor.reconstruct ((List.range (n + 3)).map fun r =>
        (⟨B r - T r + (if r = 0 then wz else 0), none, c0, 2 ^ 64⟩ : ShareTensor I64)) >>= _) = _
      rw [htheta, ok_bind]
      change (MPCTensor.applyPublicLin env .sub x'
        (wrapCorrection fl s.config s.ringSize (((List.range (n + 3)).map B).sum - wr + wz) d) >>= fun res => pure (res, x')) = _
      rw [hres, ok_bind]
      rfl
    · intro r hr
      simp only [Function.comp]
      exact hdw r (List.mem_range.mp hr)
  · rw [hX]
    simp only [x', List.map_map]
    rfl
  · rw [hX, List.map_map, List.zip_map', List.mapM_map]
    apply mapM_ok
    intro r hr
    rfl
  · rw [hX, List.map_map, List.zipWith_map]
    simpa [List.zipWith_self] using hwz
  · rw [hresV]
    rfl

end SyMPC
