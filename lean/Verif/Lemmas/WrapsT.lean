import Verif.Model.DivideView
import Verif.Props.Wraps

/-! # Lemmas on the division of tensors -/

namespace SyMPC

variable {ι : Type}

theorem countWrapsFromT_at (l : List (ι → I64)) (prev res : ι → I64) (i : ι) :
    countWrapsFromT prev res l i = countWrapsFrom (prev i) (res i) (l.map (· i)) := by
  induction l generalizing prev res with
  | nil => rfl
  | cons a l ih =>
    rw [countWrapsFromT, List.map_cons, countWrapsFrom]
    exact ih _ _

theorem countWrapsT_at {l : List (ι → I64)} {w : ι → I64} (h : countWrapsT l = .ok w) (i : ι) : countWraps (l.map (· i)) = .ok (w i) := by
  cases l with
  | nil => cases h
  | cons a l =>
    cases h
    rw [List.map_cons, countWraps, countWrapsFromT_at]
    rfl

theorem publicDivideSeen_fst (fl : ℚ → ℚ) (env : Env) (rnd : WrapRandT ι) (x : MPCTensor (ι → I64)) (d : Int)
    (h : x.session.nrParties ≠ 2) : (publicDivideSeen fl env rnd x d).map Prod.fst = publicDivideT fl env rnd x d := by
  unfold publicDivideSeen publicDivideT
  dsimp only
  rw [if_neg h]
  cases countWrapsRandT env x.session.nrParties rnd with
  | error e => rfl
  | ok primitives =>
  rw [ok_bind, ok_bind]
  cases ShareTensor.distributeShares x.session (primitives.map (·.1)) with
  | error e => rfl
  | ok rs =>
  rw [ok_bind, ok_bind]
  cases MPCTensor.ofShares x.session rs with
  | error e => rfl
  | ok r =>
  rw [ok_bind, ok_bind]
  cases MPCTensor.applyPrivateLin (P := Empty) env .add r x with
  | error e => rfl
  | ok z =>
  rw [ok_bind, ok_bind]
  cases List.mapM (fun q => divWrapsT env q.1 q.2.1 q.2.2 (z.shares.map (·.tensor)) d)
      (r.shares.zip ((primitives.map (·.2)).zip x.shares)) with
  | error e => rfl
  | ok out =>
  rw [ok_bind, ok_bind]
  cases ShareTensor.reconstruct (out.map (·.1)) with
  | error e => rfl
  | ok theta =>
  rw [ok_bind, ok_bind]
  cases MPCTensor.applyPublicLin (P := ι → FixedPointEncoder.Val) env .sub { x with shares := out.map (·.2) }
      (fun i => wrapCorrection fl x.session.config x.session.ringSize (theta i) d) with
  | error e => rfl
  | ok res => rfl

/-- what `public_divide` computes and sends, in the ring -/
theorem divide_seenT (fl : ℚ → ℚ) (env : Env) (s : Session) (hs : s.Live env) (n : Nat) (hn : s.nrParties = n + 3)
    (rnd : WrapRandT ι) (x : MPCTensor (ι → I64)) (hx : x.WF env) (hxs : x.session = s) (d : Int) :
    ∃ (res x' : MPCTensor (ι → I64)) (bs : List (ι → I64)) (wr wz : ι → I64),
      let rs := (List.range (n + 3)).map (shareTensorOf rnd.r (n + 1) rnd.dr)
      let xs := x.shares.map (·.tensor)
      publicDivideSeen fl env rnd x d = .ok (res, ⟨rs, (List.range (n + 3)).map (shareTensorOf wr (n + 1) rnd.dt),
        List.zipWith (· + ·) rs xs, fun i => wrapCorrection fl s.config s.ringSize ((bs.sum - wr + wz) i) d⟩) ∧
      res.WF env ∧ res.session = s ∧ x'.WF env ∧ x'.session = s ∧
      res.shares.tail = x'.shares.tail ∧
      x'.shares.map (·.tensor) = xs.map (fun t i => floordiv (t i) (BitVec.ofInt 64 d)) ∧
      (xs.zip rs).mapM (fun p => countWrapsT [p.1, p.2]) = .ok bs ∧ countWrapsT rs = .ok wr ∧
      countWrapsT (List.zipWith (· + ·) rs xs) = .ok wz ∧
      res.reconstruct = .ok ((xs.map (fun t i => floordiv (t i) (BitVec.ofInt 64 d))).sum
        - PubEnc.enc s.config fun i => wrapCorrection fl s.config s.ringSize ((bs.sum - wr + wz) i) d) := by
  have h2 := hs.two
  have hlx : x.shares.length = s.nrParties := by
    have := congrArg List.length hx.tags
    simpa [hxs, hs.ranks] using this
  let X : Nat → ShareTensor (ι → I64) := fun r => x.shares.getD r ⟨0, none, {}, 0⟩
  let U : Nat → Nat := fun r => s.rankToUuid.getD r 0
  have hX : x.shares = (List.range (n + 3)).map X := list_eq_map_range _ _ _ (by rw [hlx, hn])
  have hU : s.rankToUuid = (List.range (n + 3)).map U := list_eq_map_range 0 _ _ (by rw [hs.ranks, hn])
  have hUr : ∀ r < n + 3, s.rankToUuid[r]? = some (U r) := by
    intro r hr
    have := congrArg (fun l : List Nat => l[r]?) hU
    simpa [hr] using this
  have htX : ∀ r < n + 3, (X r).sessionUuid = some (U r) := by
    intro r hr
    have h := hx.tags
    rw [hxs, hX, hU, List.map_map, List.map_map] at h
    have := congrArg (fun l => l[r]?) h
    simpa [hr] using this
  have hP : ∀ r, ∃ p : PartySession, r < n + 3 →
      env (U r) = some p ∧ p.rank = r ∧ p.config = s.config ∧ p.ringSize = s.ringSize := by
    intro r
    by_cases hr : r < n + 3
    · obtain ⟨p, hp, hp1, hp2⟩ := hs.ranked r (U r) (hUr r hr)
      obtain ⟨p', hp', hc, hri⟩ := hs.known (U r) (List.mem_of_getElem? (hUr r hr))
      rw [hp] at hp'
      cases hp'
      exact ⟨p, fun _ => ⟨hp, hp1, hc, hri⟩⟩
    · exact ⟨⟨0, 0, 0, {}, 0, .int64, fssProtocol, 0, 0⟩, fun h => absurd h hr⟩
  choose P hP using hP
  let R : Nat → ι → I64 := shareTensorOf rnd.r (n + 1) rnd.dr
  let c0 : Config := { encoderPrecision := 0 }
  obtain ⟨wr, hwr⟩ : ∃ wr, countWrapsT ((List.range (n + 3)).map R) = .ok wr := by
    cases h : (List.range (n + 3)).map R with
    | nil => simp at h
    | cons a l => exact ⟨_, rfl⟩
  obtain ⟨wz, hwz⟩ : ∃ wz, countWrapsT ((List.range (n + 3)).map fun r => R r + (X r).tensor) = .ok wz := by
    cases h : (List.range (n + 3)).map fun r => R r + (X r).tensor with
    | nil => simp at h
    | cons a l => exact ⟨_, rfl⟩
  let T : Nat → ι → I64 := shareTensorOf wr (n + 1) rnd.dt
  have hprim : countWrapsRandT env (n + 3) rnd
      = .ok ((List.range (n + 3)).map fun r => (⟨R r, none, c0, 2 ^ 64⟩, ⟨T r, none, c0, 2 ^ 64⟩)) := by
    unfold countWrapsRandT
    dsimp only
    rw [generateShares_eq env ⟨rnd.r, none, _, _⟩ rfl, ok_bind]
    have e1 : (sharesOf (⟨rnd.r, none, c0, 2 ^ 64⟩ : ShareTensor (ι → I64)) (n + 1) rnd.dr).map (·.tensor) = (List.range (n + 3)).map R := by
      simp only [sharesOf, ite_self, List.map_map]
      rfl
    rw [e1, hwr, ok_bind, generateShares_eq env ⟨wr, none, _, _⟩ rfl, ok_bind, pure_eq_ok]
    simp only [sharesOf, ite_self]
    rw [List.zip_map']
    rfl
  have hdist : ShareTensor.distributeShares s ((List.range (n + 3)).map fun r => (⟨R r, none, c0, 2 ^ 64⟩ : ShareTensor (ι → I64)))
      = .ok ((List.range (n + 3)).map fun r => ⟨R r, some (U r), c0, 2 ^ 64⟩) := by
    rw [distributeShares_eq s _ (by simp [hs.ranks, hn]) (by rw [hs.parties, hs.ranks]), hU, List.zipWith_map]
    simp [List.zipWith_self]
  have hadd : MPCTensor.applyPrivateLin (P := Empty) env .add
        ⟨s, (List.range (n + 3)).map fun r => ⟨R r, some (U r), c0, 2 ^ 64⟩⟩ x
      = .ok ⟨s, (List.range (n + 3)).map fun r => ⟨R r + (X r).tensor, some (U r), (P r).config, (P r).ringSize⟩⟩ := by
    unfold MPCTensor.applyPrivateLin MPCTensor.checkPrivate
    rw [hxs]
    simp only [ne_eq, not_true_eq_false, if_false, ok_bind]
    rw [hX, List.zip_map', List.mapM_map, mapM_ok _ (fun r => ⟨R r + (X r).tensor, some (U r), (P r).config, (P r).ringSize⟩)]
    · rw [ok_bind, ofShares_ok _ _ hs.ptrs (by simp)]
    · intro r hr
      have hr := List.mem_range.mp hr
      simp only [Function.comp]
      exact shareOp_priv env .add _ _ (U r) (P r) rfl (htX r hr) (hP r hr).1
  let B : Nat → ι → I64 := fun r => countWrapsFromT (X r).tensor 0 [R r]
  have hdw : ∀ r < n + 3, divWrapsT env ⟨R r, some (U r), c0, 2 ^ 64⟩ ⟨T r, none, c0, 2 ^ 64⟩ (X r)
      (((List.range (n + 3)).map fun r => (⟨R r + (X r).tensor, some (U r), (P r).config, (P r).ringSize⟩ : ShareTensor (ι → I64))).map (·.tensor)) d
      = .ok (⟨B r - T r + (if r = 0 then wz else 0), none, c0, 2 ^ 64⟩,
        { X r with tensor := fun i => floordiv ((X r).tensor i) (BitVec.ofInt 64 d) }) := by
    intro r hr
    unfold divWrapsT
    simp only [(hP r hr).1, (hP r hr).2.1, ok_bind]
    rw [List.map_map]
    rw [show countWrapsT [(X r).tensor, R r] = .ok (B r) from rfl, ok_bind]
    by_cases h0 : r = 0
    · rw [if_pos h0, if_pos (by exact_mod_cast h0)]
      rw [show (List.range (n + 3)).map ((fun x : ShareTensor (ι → I64) => x.tensor) ∘ fun r => ⟨R r + (X r).tensor, some (U r), (P r).config, (P r).ringSize⟩)
        = (List.range (n + 3)).map fun r => R r + (X r).tensor from rfl, hwz, ok_bind]
      rfl
    · rw [if_neg h0, if_neg (by exact_mod_cast h0), ok_bind]
      rfl
  let x' : MPCTensor (ι → I64) := ⟨s, (List.range (n + 3)).map fun r => { X r with tensor := fun i => floordiv ((X r).tensor i) (BitVec.ofInt 64 d) }⟩
  have hx' : x'.WF env := by
    refine ⟨hs.toReady, ?_⟩
    change List.map _ (List.map _ _) = List.map _ s.rankToUuid
    rw [hU, List.map_map, List.map_map]
    apply List.map_congr_left
    intro r hr
    exact htX r (List.mem_range.mp hr)
  have hx'r : x'.reconstruct = .ok ((x.shares.map (·.tensor)).map (fun t i => floordiv (t i) (BitVec.ofInt 64 d))).sum := by
    rw [WF.reconstruct hx', hX]
    congr 2
    simp only [x', List.map_map]
    rfl
  have htheta : ShareTensor.reconstruct ((List.range (n + 3)).map fun r =>
      (⟨B r - T r + (if r = 0 then wz else 0), none, c0, 2 ^ 64⟩ : ShareTensor (ι → I64)))
      = .ok (((List.range (n + 3)).map B).sum - wr + wz) := by
    rw [reconstruct_eq_sum _ (by simp), List.map_map]
    congr 1
    change ((List.range (n + 3)).map fun r => B r - T r + (if r = 0 then wz else 0)).sum = _
    rw [sum_range_list, sum_range_list, Finset.sum_add_distrib, Finset.sum_sub_distrib]
    congr 1
    · congr 1
      exact sum_shareTensorOf wr (n + 1) rnd.dt
    · rw [Finset.sum_ite_eq', if_pos (by simp)]
  obtain ⟨res, hres, hresS, hresWF, htail, hresV⟩ := pub_ok env .sub x'
    (fun i => wrapCorrection fl s.config s.ringSize ((((List.range (n + 3)).map B).sum - wr + wz) i) d) hx' _ hx'r
  refine ⟨res, x', (List.range (n + 3)).map B, wr, wz, ?_, hresWF, hresS, hx', rfl, htail, ?_, ?_, hwr, ?_, ?_⟩
  · unfold publicDivideSeen
    dsimp only
    rw [hxs, hn, hprim, ok_bind, List.map_map, List.map_map]
    change (ShareTensor.distributeShares s ((List.range (n + 3)).map fun r => (⟨R r, none, c0, 2 ^ 64⟩ : ShareTensor (ι → I64))) >>= _) = _
    rw [hdist, ok_bind, ofShares_ok s _ hs.ptrs (by simp), ok_bind, hadd, ok_bind]
    dsimp only
    have hz : ((List.range (n + 3)).map fun r => (⟨R r, some (U r), c0, 2 ^ 64⟩ : ShareTensor (ι → I64))).zip
        (((List.range (n + 3)).map ((fun p : ShareTensor (ι → I64) × ShareTensor (ι → I64) => p.2) ∘ fun r => (⟨R r, none, c0, 2 ^ 64⟩, ⟨T r, none, c0, 2 ^ 64⟩))).zip x.shares)
        = (List.range (n + 3)).map fun r => (⟨R r, some (U r), c0, 2 ^ 64⟩, ⟨T r, none, c0, 2 ^ 64⟩, X r) := by
      rw [hX, List.zip_map', List.zip_map']
      rfl
    rw [hz, List.mapM_map, mapM_ok _ (fun r => (⟨B r - T r + (if r = 0 then wz else 0), none, c0, 2 ^ 64⟩,
        { X r with tensor := fun i => floordiv ((X r).tensor i) (BitVec.ofInt 64 d) }))]
    · rw [ok_bind, List.map_map, List.map_map]
      change (ShareTensor.reconstruct ((List.range (n + 3)).map fun r =>
        (⟨B r - T r + (if r = 0 then wz else 0), none, c0, 2 ^ 64⟩ : ShareTensor (ι → I64))) >>= _) = _
      rw [htheta, ok_bind]
      change (MPCTensor.applyPublicLin env .sub x'
        (fun i => wrapCorrection fl s.config s.ringSize ((((List.range (n + 3)).map B).sum - wr + wz) i) d) >>= _) = _
      rw [hres, ok_bind, pure_eq_ok, hX]
      simp only [List.map_map, List.zipWith_map, List.zipWith_self]
      rfl
    · intro r hr
      simp only [Function.comp]
      exact hdw r (List.mem_range.mp hr)
  · rw [hX]
    simp only [x', List.map_map]
    rfl
  · rw [hX, List.map_map, List.zip_map', List.mapM_map]
    apply mapM_ok
    intro r hr
    rfl
  · rw [hX, List.map_map, List.zipWith_map]
    simpa [List.zipWith_self] using hwz
  · rw [hresV]
    rfl

/-- what `public_divide` computes, in the ring -/
theorem divide_coreT (fl : ℚ → ℚ) (env : Env) (s : Session) (hs : s.Live env) (n : Nat) (hn : s.nrParties = n + 3)
    (rnd : WrapRandT ι) (x : MPCTensor (ι → I64)) (hx : x.WF env) (hxs : x.session = s) (d : Int) :
    ∃ (res x' : MPCTensor (ι → I64)) (bs : List (ι → I64)) (wr wz : ι → I64),
      let rs := (List.range (n + 3)).map (shareTensorOf rnd.r (n + 1) rnd.dr)
      let xs := x.shares.map (·.tensor)
      publicDivideT fl env rnd x d = .ok res ∧ res.WF env ∧ res.session = s ∧ x'.WF env ∧ x'.session = s ∧
      res.shares.tail = x'.shares.tail ∧
      x'.shares.map (·.tensor) = xs.map (fun t i => floordiv (t i) (BitVec.ofInt 64 d)) ∧
      (xs.zip rs).mapM (fun p => countWrapsT [p.1, p.2]) = .ok bs ∧ countWrapsT rs = .ok wr ∧
      countWrapsT (List.zipWith (· + ·) rs xs) = .ok wz ∧
      res.reconstruct = .ok ((xs.map (fun t i => floordiv (t i) (BitVec.ofInt 64 d))).sum
        - PubEnc.enc s.config fun i => wrapCorrection fl s.config s.ringSize ((bs.sum - wr + wz) i) d) := by
  obtain ⟨res, x', bs, wr, wz, h, rest⟩ := divide_seenT fl env s hs n hn rnd x hx hxs d
  refine ⟨res, x', bs, wr, wz, ?_, rest⟩
  rw [← publicDivideSeen_fst fl env rnd x d (by rw [hxs]; omega), h]
  rfl

end SyMPC
