import Verif.Lemmas.Py
import Verif.Spec.Share

namespace SyMPC

variable {P T : Type}

theorem sub_none [Sub T] (env : Env) (x y : ShareTensor T) (hx : x.sessionUuid = none) (hy : y.sessionUuid = none) :
    ShareTensor.sub (P := Empty) env x (.inr y)
      = .ok { tensor := x.tensor - y.tensor, sessionUuid := none, config := x.config, ringSize := x.ringSize } := by
  simp [ShareTensor.sub, ShareTensor.sanityChecks, ShareTensor.applyFunction, hx, hy, ok_bind]

/-- the shares made by `generateShares` for `n + 2` parties -/
def sharesOf [Sub T] (secret : ShareTensor T) (n : Nat) (draws : Nat → T) : List (ShareTensor T) :=
  (List.range (n + 2)).map fun i =>
    { tensor := if i = 0 then draws 0 else if i < n + 1 then draws i - draws (i - 1) else secret.tensor - draws (i - 1)
      sessionUuid := none, config := secret.config
      ringSize := if i < n + 1 then 2 ^ 64 else secret.ringSize }

theorem generateShares_eq [Sub T] (env : Env) (secret : ShareTensor T) (h : secret.sessionUuid = none)
    (n : Nat) (draws : Nat → T) :
    generateShares env secret (n + 2) draws = .ok (sharesOf secret n draws) := by
  unfold generateShares sharesOf
  apply mapM_ok
  intro i hi
  rw [List.mem_range] at hi
  by_cases h0 : i = 0
  · subst h0
    simp [pyGet]
  · simp only [h0, if_false]
    by_cases h1 : i < n + 1
    · have h2 : i < n + 2 - 1 := by omega
      simp only [h2, h1, if_true]
      rw [pyGet_ok (by simp; omega), pyGet_ok (by simp; omega), ok_bind, ok_bind, sub_none _ _ _ (by simp) (by simp)]
      simp
    · have h2 : ¬ i < n + 2 - 1 := by omega
      simp only [h2, h1, if_false]
      rw [pyGet_ok (by simp; omega), ok_bind, sub_none _ _ _ h (by simp)]
      simp

/-- the same when the secret already carries a known session: the last share gets that session's tag -/
theorem generateShares_tensors [Sub T] (env : Env) (secret : ShareTensor T)
    (h : ∀ u, secret.sessionUuid = some u → env u ≠ none) (n : Nat) (draws : Nat → T) :
    ∃ shares, generateShares env secret (n + 2) draws = .ok shares ∧
      shares.map (·.tensor) = (List.range (n + 2)).map fun i =>
        if i = 0 then draws 0 else if i < n + 1 then draws i - draws (i - 1) else secret.tensor - draws (i - 1) := by
  cases hu : secret.sessionUuid with
  | none =>
    refine ⟨_, generateShares_eq env secret hu n draws, ?_⟩
    simp [sharesOf]
  | some u =>
    obtain ⟨p, hp⟩ := Option.ne_none_iff_exists'.mp (h u hu)
    let g : Nat → ShareTensor T := fun i =>
      if i < n + 1 then
        { tensor := if i = 0 then draws 0 else draws i - draws (i - 1)
          sessionUuid := none, config := secret.config, ringSize := 2 ^ 64 }
      else { tensor := secret.tensor - draws (i - 1), sessionUuid := some u, config := p.config, ringSize := p.ringSize }
    refine ⟨(List.range (n + 2)).map g, ?_, ?_⟩
    · unfold generateShares
      apply mapM_ok
      intro i hi
      rw [List.mem_range] at hi
      by_cases h0 : i = 0
      · subst h0
        simp [pyGet, g]
      · simp only [h0, if_false]
        by_cases h1 : i < n + 1
        · have h2 : i < n + 2 - 1 := by omega
          simp only [h2, if_true]
          rw [pyGet_ok (by simp; omega), pyGet_ok (by simp; omega), ok_bind, ok_bind,
            sub_none _ _ _ (by simp) (by simp)]
          simp [g, h0]
          omega
        · have h2 : ¬ i < n + 2 - 1 := by omega
          simp only [h2, if_false]
          rw [pyGet_ok (by simp; omega), ok_bind]
          simp [ShareTensor.sub, ShareTensor.sanityChecks, ShareTensor.applyFunction, hu, hp, ok_bind, g]
          omega
    · rw [List.map_map]
      apply List.map_congr_left
      intro i _
      by_cases h1 : i < n + 1
      · simp only [Function.comp, g, h1, if_true]
      · have h0 : i ≠ 0 := by omega
        simp only [Function.comp, g, h1, if_false, h0]

theorem reconstruct_eq_sum [AddCommMonoid T] (shares : List (ShareTensor T)) (h : shares ≠ []) :
    ShareTensor.reconstruct shares = .ok (shares.map (·.tensor)).sum := by
  simp [ShareTensor.reconstruct, h, foldl_add_eq_sum]

theorem distributeShares_eq (s : Session) (shares : List (ShareTensor T))
    (h1 : shares.length = s.rankToUuid.length) (h2 : s.parties.length = s.rankToUuid.length) :
    ShareTensor.distributeShares s shares
      = .ok (List.zipWith (fun sh u => { sh with sessionUuid := some u }) shares s.rankToUuid) := by
  unfold ShareTensor.distributeShares
  rw [mapM_ok_iff, List.forall₂_iff_get]
  refine ⟨by simp [h1], ?_⟩
  intro i hi hi'
  have hi1 : i < shares.length := by simpa using hi
  have : i < s.rankToUuid.length := by omega
  have : i < s.parties.length := by omega
  simp [*]

theorem shareOp_priv [Add T] [Sub T] [PubEnc P T] (env : Env) (op : MPCTensor.LinOp) (x y : ShareTensor T) (u : Nat)
    (p : PartySession) (hx : x.sessionUuid = some u) (hy : y.sessionUuid = some u) (hp : env u = some p) :
    MPCTensor.shareOp (P := P) env op x (.inr y)
      = .ok ⟨LinOp.den op x.tensor y.tensor, some u, p.config, p.ringSize⟩ := by
  cases op <;>
  simp [MPCTensor.shareOp, ShareTensor.add, ShareTensor.sub, ShareTensor.sanityChecks, ShareTensor.applyFunction,
    hx, hy, hp, ok_bind, LinOp.den]

theorem shareOp_pub [Add T] [Sub T] [PubEnc P T] (env : Env) (op : MPCTensor.LinOp) (x : ShareTensor T) (y : P) (u : Nat)
    (p : PartySession) (hx : x.sessionUuid = some u) (hp : env u = some p)
    (hr : ∃ t, getTypeFromRing p.ringSize = .ok t) :
    MPCTensor.shareOp env op x (.inl y)
      = .ok ⟨LinOp.den op x.tensor (PubEnc.enc p.config y), some u, p.config, p.ringSize⟩ := by
  obtain ⟨t, ht⟩ := hr
  cases op <;>
  simp [MPCTensor.shareOp, ShareTensor.add, ShareTensor.sub, ShareTensor.sanityChecks, ShareTensor.applyFunction,
    ShareTensor.ofPublic, hx, hp, ht, ok_bind, LinOp.den, pure_eq_ok]

/-- one private linear operation on lists of shares with matching tags -/
theorem priv_shares [Add T] [Sub T] [PubEnc P T] (env : Env) (op : MPCTensor.LinOp) (us : List Nat)
    (xs ys : List (ShareTensor T)) (hx : xs.map (·.sessionUuid) = us.map some)
    (hy : ys.map (·.sessionUuid) = us.map some) (hk : ∀ u ∈ us, ∃ p, env u = some p) :
    ∃ zs, (xs.zip ys).mapM (fun (a, b) => MPCTensor.shareOp (P := P) env op a (.inr b)) = .ok zs ∧
      zs.map (·.sessionUuid) = us.map some ∧
      zs.map (·.tensor) = List.zipWith (LinOp.den op) (xs.map (·.tensor)) (ys.map (·.tensor)) := by
  induction us generalizing xs ys with
  | nil =>
    have hx' : xs = [] := by simpa using hx
    have hy' : ys = [] := by simpa using hy
    subst hx' hy'
    exact ⟨[], rfl, rfl, rfl⟩
  | cons u us ih =>
    cases xs with
    | nil => simp at hx
    | cons x xs =>
      cases ys with
      | nil => simp at hy
      | cons y ys =>
        simp only [List.map_cons, List.cons.injEq] at hx hy
        obtain ⟨p, hp⟩ := hk u (by simp)
        obtain ⟨zs, h1, h2, h3⟩ := ih xs ys hx.2 hy.2 (fun v hv => hk v (by simp [hv]))
        refine ⟨⟨LinOp.den op x.tensor y.tensor, some u, p.config, p.ringSize⟩ :: zs, ?_, by simp [h2], by simp [h3]⟩
        rw [List.zip_cons_cons, List.mapM_cons]
        simp only [shareOp_priv env op x y u p hx.1 hy.1 hp, ok_bind, h1]
        rfl

theorem sum_zipWith_den [AddCommGroup T] (op : MPCTensor.LinOp) (xs ys : List T) (h : xs.length = ys.length) :
    (List.zipWith (LinOp.den op) xs ys).sum = LinOp.den op xs.sum ys.sum := by
  induction xs generalizing ys with
  | nil =>
    have : ys = [] := by simpa using h.symm
    subst this; cases op <;> simp [LinOp.den]
  | cons x xs ih =>
    cases ys with
    | nil => simp at h
    | cons y ys =>
      rw [List.zipWith_cons_cons, List.sum_cons, ih ys (by simpa using h)]
      cases op
      · simp only [LinOp.den, List.sum_cons]; abel
      · simp only [LinOp.den, List.sum_cons]; abel

theorem WF.nonempty {env : Env} {x : MPCTensor T} (h : x.WF env) : x.shares ≠ [] := by
  intro h0
  have h1 := congrArg List.length h.tags
  have h2 := h.ready.ranks
  have h3 := h.ready.two
  simp [h0] at h1
  omega

theorem WF.reconstruct [AddCommMonoid T] {env : Env} {x : MPCTensor T} (h : x.WF env) :
    x.reconstruct = .ok (x.shares.map (·.tensor)).sum := reconstruct_eq_sum _ (WF.nonempty h)

theorem ofShares_ok (s : Session) (shares : List (ShareTensor T)) (h1 : s.sessionPtrs ≠ []) (h2 : shares ≠ []) :
    MPCTensor.ofShares s shares = .ok ⟨s, shares⟩ := by
  simp [MPCTensor.ofShares, h1, h2]

end SyMPC
