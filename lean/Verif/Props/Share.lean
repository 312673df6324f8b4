import Verif.Lemmas.Share
import Verif.Lemmas.Encoder
import Mathlib.Algebra.BigOperators.Intervals
import Mathlib.Data.BitVec
import Mathlib.Algebra.Ring.Pi
import Mathlib.Data.Fin.VecNotation

/-!
# C03, C04, C11, C12, C15, C16: additive sharing
-/

namespace SyMPC

variable {P T : Type}

/-! ## A concrete session used in the examples -/

/-- three parties 10, 11, 12 with party session uuids 100, 101, 102 -/
def exSession : Session :=
  { uuid := some 103, parties := [10, 11, 12], nrParties := 3, protocol := fssProtocol, config := {},
    ringSize := 2 ^ 64, tensorType := .int64, minValue := -2 ^ 63, maxValue := 2 ^ 63 - 1,
    rankToUuid := [100, 101, 102],
    sessionPtrs := (List.range 3).map fun r =>
      { uuid := 100 + r, rank := r, nrParties := 3, config := {}, ringSize := 2 ^ 64, tensorType := .int64,
        protocol := fssProtocol }
    autogradActive := false }

/-- the parties' sessions of `exSession` -/
def exEnv : Env := Env.register (fun _ => none) exSession.sessionPtrs

theorem exReady : exSession.Ready exEnv where
  ptrs := by decide
  two := by decide
  parties := by decide
  ranks := by decide
  ring := ⟨.int64, by decide⟩
  known := by
    have : ∀ u ∈ exSession.rankToUuid, (∃ p ∈ exSession.sessionPtrs, exEnv u = some p) := by decide
    intro u hu
    obtain ⟨p, hp, h⟩ := this u hu
    refine ⟨p, h, ?_⟩
    revert p; intro p hp h
    simp [exSession] at hp
    obtain ⟨a, ha, rfl⟩ := hp
    exact ⟨rfl, rfl⟩

/-! ## C03 -/

/-- C03: for `n + 2` parties sharing succeeds, gives one share per party, and reconstruction returns the secret,
whatever was drawn and whether or not the secret already belongs to a (known) session. -/
theorem C03_share_reconstruct [AddCommGroup T] (env : Env) (secret : ShareTensor T)
    (h : ∀ u, secret.sessionUuid = some u → env u ≠ none) (n : Nat) (draws : Nat → T) :
    ∃ shares, generateShares env secret (n + 2) draws = .ok shares ∧ shares.length = n + 2 ∧
      ShareTensor.reconstruct shares = .ok secret.tensor := by
  obtain ⟨shares, h1, h2⟩ := generateShares_tensors env secret h n draws
  have hlen : shares.length = n + 2 := by
    have := congrArg List.length h2
    simpa using this
  refine ⟨shares, h1, hlen, ?_⟩
  rw [reconstruct_eq_sum _ (by intro h0; simp [h0] at hlen), h2, sum_range_telescope]

example : (match generateShares exEnv (⟨7#64, none, {}, 2 ^ 64⟩ : ShareTensor I64) 3 (fun k => BitVec.ofNat 64 (100 * k + 5)) with
    | .ok l => l.map (·.tensor)
    | .error _ => []) = [5#64, 100#64, -98#64] := by decide

/-- C03: with one party the call fails, with none it makes no share. -/
theorem C03_degenerate [Sub T] (env : Env) (secret : ShareTensor T) (draws : Nat → T) :
    generateShares env secret 1 draws = .error .indexError ∧ generateShares env secret 0 draws = .ok [] :=
  ⟨rfl, rfl⟩

/-- making a secret tensor of a ready session succeeds -/
theorem ofSecret_ok [AddCommGroup T] [PubEnc P T] (env : Env) (s : Session) (hs : s.Ready env) (v : P) (draws : Nat → T) :
    ∃ x, MPCTensor.ofSecret env s v draws = .ok x ∧ x.session = s ∧ x.WF env ∧
      x.reconstruct = .ok (PubEnc.enc s.config v) := by
  obtain ⟨n, hn⟩ : ∃ n, s.nrParties = n + 2 := ⟨s.nrParties - 2, by have := hs.two; omega⟩
  let sec : ShareTensor T := ⟨PubEnc.enc s.config v, none, s.config, 2 ^ 64⟩
  have hpub : ShareTensor.ofPublic (T := T) v s.config (2 ^ 64) = .ok sec := rfl
  have hne : sharesOf sec n draws ≠ [] := by simp [sharesOf]
  have hlen : (sharesOf sec n draws).length = s.rankToUuid.length := by
    rw [hs.ranks, hn]; simp [sharesOf]
  have htags : (List.zipWith (fun (sh : ShareTensor T) u => { sh with sessionUuid := some u }) (sharesOf sec n draws)
      s.rankToUuid).map (·.sessionUuid) = s.rankToUuid.map some := by
    rw [List.map_zipWith]
    apply List.ext_getElem
    · simp [hlen]
    · intro i h1 h2; simp
  have htens : (List.zipWith (fun (sh : ShareTensor T) u => { sh with sessionUuid := some u }) (sharesOf sec n draws)
      s.rankToUuid).map (·.tensor) = (sharesOf sec n draws).map (·.tensor) := by
    rw [List.map_zipWith]
    apply List.ext_getElem
    · simp [hlen]
    · intro i h1 h2; simp
  refine ⟨⟨s, List.zipWith (fun (sh : ShareTensor T) u => { sh with sessionUuid := some u }) (sharesOf sec n draws)
      s.rankToUuid⟩, ?_, rfl, ⟨hs, htags⟩, ?_⟩
  · unfold MPCTensor.ofSecret
    have : ¬ s.sessionPtrs.length = 0 := by simp [hs.ptrs]
    simp only [this, if_false, hpub, ok_bind, hn, pure_eq_ok,
      generateShares_eq env sec rfl, hne, distributeShares_eq s _ hlen (by rw [hs.parties, hs.ranks])]
  · rw [WF.reconstruct ⟨hs, htags⟩, htens]
    congr 1
    simpa [sharesOf, Function.comp_def] using sum_range_telescope draws (PubEnc.enc s.config v) n

/-- C03: end to end on the API: a secret tensor made in a ready session reconstructs to the encoded secret. -/
theorem C03_mpctensor_reconstruct [AddCommGroup T] [PubEnc P T] (env : Env) (s : Session) (hs : s.Ready env) (v : P)
    (draws : Nat → T) :
    ∃ x, MPCTensor.ofSecret env s v draws = .ok x ∧ x.shares.length = s.nrParties ∧
      x.reconstruct = .ok (PubEnc.enc s.config v) := by
  obtain ⟨x, h1, h2, h3, h4⟩ := ofSecret_ok env s hs v draws
  refine ⟨x, h1, ?_, h4⟩
  have := congrArg List.length h3.tags
  simpa [h2, hs.ranks] using this

/-- C03: reconstruction needs shares: with none there is an exception, with some there is a value. -/
theorem C03_no_shares [Add T] [Zero T] (shares : List (ShareTensor T)) :
    (ShareTensor.reconstruct shares = .error .valueError ↔ shares = []) ∧
    ∀ e, ShareTensor.reconstruct shares = .error e → shares = [] := by
  unfold ShareTensor.reconstruct
  split <;> simp_all

/-- C03: end to end with decoding: a number that the encoding represents exactly is returned unchanged. -/
theorem C03_get_decoded (env : Env) (s : Session) (hs : s.Ready env) (hb : 2 ≤ s.config.encoderBase)
    (hsc : s.config.encoderBase ^ s.config.encoderPrecision < 2 ^ 63) (k : Int) (h1 : -2 ^ 63 ≤ k) (h2 : k < 2 ^ 63)
    (draws : Nat → I64) :
    ∃ (x : MPCTensor I64) (w : I64),
      MPCTensor.ofSecret env s
        (FixedPointEncoder.Val.float (k / (s.config.encoderBase ^ s.config.encoderPrecision : Nat) : ℚ)) draws = .ok x ∧
      x.reconstruct = .ok w ∧
      s.config.encoder.decode (.long w)
        = .ok (k / (s.config.encoderBase ^ s.config.encoderPrecision : Nat) : ℚ) := by
  obtain ⟨x, hx, _, _, hr⟩ := ofSecret_ok (T := I64) env s hs
    (FixedPointEncoder.Val.float (k / (s.config.encoderBase ^ s.config.encoderPrecision : Nat) : ℚ)) draws
  refine ⟨x, _, hx, hr, ?_⟩
  have hs0 : 0 < s.config.encoderBase ^ s.config.encoderPrecision := Nat.pow_pos (by omega)
  have hq : ((s.config.encoderBase ^ s.config.encoderPrecision : Nat) : ℚ) ≠ 0 := by exact_mod_cast hs0.ne'
  have henc : (PubEnc.enc s.config
      (FixedPointEncoder.Val.float (k / (s.config.encoderBase ^ s.config.encoderPrecision : Nat) : ℚ)) : I64).toInt = k := by
    change (BitVec.ofInt 64 (FixedPointEncoder.truncRat _)).toInt = k
    have : (k / (s.config.encoderBase ^ s.config.encoderPrecision : Nat) : ℚ) * (s.config.encoder.scale : ℚ) = (k : ℚ) := by
      change (k / (s.config.encoderBase ^ s.config.encoderPrecision : Nat) : ℚ)
        * ((s.config.encoderBase ^ s.config.encoderPrecision : Nat) : ℚ) = k
      field_simp
    rw [this, truncRat_intCast, toInt_ofInt64 h1 h2]
  generalize (PubEnc.enc s.config
      (FixedPointEncoder.Val.float (k / (s.config.encoderBase ^ s.config.encoderPrecision : Nat) : ℚ)) : I64) = w at henc
  unfold FixedPointEncoder.decode
  by_cases hp : s.config.encoderPrecision = 0
  · simp [Config.encoder, FixedPointEncoder.new, hp, henc]
  · have hs2 : 2 ≤ s.config.encoderBase ^ s.config.encoderPrecision :=
      le_trans hb (Nat.le_self_pow hp _)
    have h6 := decodeCore_eq s.config.encoder w hs0 hsc (Or.inl (by change s.config.encoderBase ^ s.config.encoderPrecision ≠ 1; omega))
    simp only [h6, henc]
    simp [Config.encoder, FixedPointEncoder.new, hp]

example : exSession.Ready exEnv ∧ 2 ≤ exSession.config.encoderBase := ⟨exReady, by decide⟩

/-! ## C04 -/

/-- The draws as a function on all numbers, from the `m` draws that are made. -/
def extendDraws [Zero T] {m : Nat} (d : Fin m → T) : Nat → T := fun k => if h : k < m then d ⟨k, h⟩ else 0

/-- The values of the shares, by rank. -/
def shareValues [Sub T] [Zero T] (env : Env) (secret : T) (n : Nat) (d : Fin (n - 1) → T) : Nat → Option T := fun i =>
  match generateShares env ⟨secret, none, {}, 2 ^ 64⟩ n (extendDraws d) with
  | .ok l => l[i]?.map (·.tensor)
  | .error _ => none

theorem shareValues_eq [AddCommGroup T] (env : Env) (secret : T) (n : Nat) (d : Fin (n + 1) → T) (i : Nat) (hi : i < n + 2) :
    shareValues env secret (n + 2) d i
      = some (if i = 0 then extendDraws d 0 else if i < n + 1 then extendDraws d i - extendDraws d (i - 1)
          else secret - extendDraws d (i - 1)) := by
  unfold shareValues
  rw [generateShares_eq env _ rfl n]
  simp [sharesOf, hi]

/-- C04 (partial): if the masks are drawn from the whole ring, every view of all parties but one is produced by
exactly one choice of the masks, for every secret.  What is missing: `random_()` on int64 draws only from
`[0, 2^63)`, see `C04_half_range_leaks`. -/
theorem C04_views_independent_partial [AddCommGroup T] (env : Env) (secret : T) (n : Nat) (j : Nat) (hj : j < n + 2)
    (view : Nat → T) :
    ∃! d : Fin (n + 2 - 1) → T, ∀ i < n + 2, i ≠ j → shareValues env secret (n + 2) d i = some (view i) := by
  let c : Nat → T := fun k =>
    if k < j then ∑ t ∈ Finset.range (k + 1), view t else secret - ∑ t ∈ Finset.Ico (k + 1) (n + 2), view t
  have hc : ∀ k (hk : k < n + 1), extendDraws (fun k : Fin (n + 1) => c k) k = c k := by
    intro k hk; simp [extendDraws, hk]
  refine ⟨fun k => c k, ?_, ?_⟩
  · intro i hi hij
    have := shareValues_eq env secret n (fun k => c k) i hi
    refine this.trans ?_
    congr 1
    by_cases h0 : i = 0
    · subst h0
      have : 0 < j := by omega
      rw [if_pos rfl, hc 0 (by omega)]
      simp [c, this]
    · rw [if_neg h0]
      by_cases h1 : i < n + 1
      · rw [if_pos h1, hc i h1, hc (i - 1) (by omega)]
        by_cases h2 : i < j
        · simp only [c, h2, if_true, show i - 1 < j by omega]
          rw [show i - 1 + 1 = i by omega, Finset.sum_range_succ]
          simp
        · simp only [c, h2, if_false, show ¬ i - 1 < j by omega]
          rw [show i - 1 + 1 = i by omega, Finset.sum_eq_sum_Ico_succ_bot hi]
          abel
      · have h2 : i = n + 1 := by omega
        subst h2
        rw [if_neg h1, hc _ (by omega)]
        simp only [c, show ¬ n + 1 - 1 < j by omega, if_false]
        simp
  · intro d hd
    have e : ∀ i < n + 2, i ≠ j → (if i = 0 then extendDraws d 0 else if i < n + 1 then extendDraws d i - extendDraws d (i - 1)
          else secret - extendDraws d (i - 1)) = view i := by
      intro i hi hij
      have h1 := hd i hi hij
      have h2 := shareValues_eq env secret n d i hi
      rw [h2] at h1
      exact Option.some.inj h1
    have up : ∀ k, k < n + 1 → k < j → extendDraws d k = c k := by
      intro k
      induction k with
      | zero =>
        intro hk hkj
        have := e 0 (by omega) (by omega)
        simp only [if_true] at this
        rw [this]; simp [c, hkj]
      | succ k ih =>
        intro hk hkj
        have h1 := e (k + 1) (by omega) (by omega)
        have h2 := ih (by omega) (by omega)
        simp only [show k + 1 ≠ 0 by omega, if_false, hk, if_true, Nat.add_sub_cancel] at h1
        rw [sub_eq_iff_eq_add] at h1
        rw [h1, h2]
        simp only [c, hkj, show k < j by omega, if_true]
        rw [Finset.sum_range_succ _ (k + 1)]
        abel
    have down : ∀ m, m ≤ n → j ≤ n - m → extendDraws d (n - m) = c (n - m) := by
      intro m
      induction m with
      | zero =>
        intro _ hmj
        have := e (n + 1) (by omega) (by omega)
        simp at this
        simp only [Nat.sub_zero] at hmj ⊢
        simp only [c, show ¬ n < j by omega, if_false]
        rw [Finset.sum_eq_sum_Ico_succ_bot (by omega), ← this]
        simp
      | succ m ih =>
        intro hm hmj
        have h1 := e (n - m) (by omega) (by omega)
        have h2 := ih (by omega) (by omega)
        simp only [show n - m ≠ 0 by omega, if_false, show n - m < n + 1 by omega, if_true] at h1
        rw [show n - m - 1 = n - (m + 1) by omega] at h1
        have h3 : extendDraws d (n - (m + 1)) = c (n - m) - view (n - m) := by rw [← h2, ← h1]; abel
        rw [h3]
        simp only [c, show ¬ n - m < j by omega, show ¬ n - (m + 1) < j by omega, if_false]
        rw [show n - (m + 1) + 1 = n - m by omega, Finset.sum_eq_sum_Ico_succ_bot (a := n - m) (by omega)]
        abel
    funext k
    have hk : k.1 < n + 1 := k.2
    have h3 : extendDraws d k.1 = d k := by simp [extendDraws, hk]
    rw [← h3]
    by_cases hkj : k.1 < j
    · exact up k hk hkj
    · have := down (n - k) (by omega) (by omega)
      rwa [show n - (n - k.1) = k.1 by omega] at this

example : (1 : Nat) < 1 + 2 ∧ shareValues exEnv (7 : I64) 3 ![5, 9] 2 = some (-2) := by decide

/-- What `random_()` can return on an int64 tensor: `[0, 2^63)`. -/
def torchRandom (r : I64) : Prop := 0 ≤ r.toInt

/-- C04 fails for the code: with two parties, for any two different secrets there is a share of the second party
that is possible with the one and impossible with the other, because masks are never negative. -/
theorem C04_half_range_leaks (env : Env) (s s' : I64) (h : s ≠ s') :
    ∃ v : I64, (∃ r, torchRandom r ∧ shareValues env s 2 ![r] 1 = some v) ∧
      ¬ ∃ r, torchRandom r ∧ shareValues env s' 2 ![r] 1 = some v := by
  have e : ∀ t r : I64, shareValues env t 2 ![r] 1 = some (t - r) := by
    intro t r
    have := shareValues_eq env t 0 ![r] 1 (by omega)
    simpa [extendDraws] using this
  simp only [e, Option.some.injEq]
  have hmsb : ∀ r : I64, torchRandom r ↔ r.toNat < 2 ^ 63 := by
    intro r
    unfold torchRandom
    rw [BitVec.toInt_eq_toNat_cond]
    have := r.isLt
    split <;> omega
  simp only [hmsb]
  by_cases hc : (s' - s).toNat < 2 ^ 63
  · refine ⟨s - 0x7fffffffffffffff#64, ⟨0x7fffffffffffffff#64, by decide, rfl⟩, ?_⟩
    rintro ⟨r, hr, hv⟩
    have h1 : r = (s' - s) + 0x7fffffffffffffff#64 := by
      have : r = s' - (s - 0x7fffffffffffffff#64) := by rw [← hv]; ring
      rw [this]; ring
    have h2 : s' - s ≠ 0 := fun h0 => h (by rw [sub_eq_zero] at h0; exact h0.symm)
    have h3 : (s' - s).toNat ≠ 0 := fun h0 => h2 (BitVec.eq_of_toNat_eq (by simpa using h0))
    rw [h1, BitVec.toNat_add, show (0x7fffffffffffffff#64).toNat = 2 ^ 63 - 1 by decide] at hr
    omega
  · refine ⟨s, ⟨0, by decide, by ring⟩, ?_⟩
    rintro ⟨r, hr, hv⟩
    have h1 : r = s' - s := by rw [← hv]; ring
    rw [h1] at hr
    exact hc hr

/-! ## C11, C12 -/

theorem priv_ok [AddCommGroup T] [PubEnc P T] (env : Env) (op : MPCTensor.LinOp) (x y : MPCTensor T)
    (hx : x.WF env) (hy : y.WF env) (hs : y.session = x.session) (a b : T)
    (ha : x.reconstruct = .ok a) (hb : y.reconstruct = .ok b) :
    ∃ z, MPCTensor.applyPrivateLin (P := P) env op x y = .ok z ∧ z.session = x.session ∧ z.WF env ∧
      z.reconstruct = .ok (LinOp.den op a b) := by
  have hty : y.shares.map (·.sessionUuid) = x.session.rankToUuid.map some := hs ▸ hy.tags
  obtain ⟨zs, h1, h2, h3⟩ := priv_shares (P := P) env op _ x.shares y.shares hx.tags hty
    (fun u hu => let ⟨p, hp, _⟩ := hx.ready.known u hu; ⟨p, hp⟩)
  have hwf : MPCTensor.WF env ⟨x.session, zs⟩ := ⟨hx.ready, h2⟩
  refine ⟨⟨x.session, zs⟩, ?_, rfl, hwf, ?_⟩
  · unfold MPCTensor.applyPrivateLin MPCTensor.checkPrivate
    rw [hs]
    simp only [ne_eq, not_true_eq_false, if_false, ok_bind]
    rw [h1, ok_bind, ofShares_ok _ _ hx.ready.ptrs (WF.nonempty hwf)]
  · rw [WF.reconstruct hx] at ha
    rw [WF.reconstruct hy] at hb
    cases ha; cases hb
    rw [WF.reconstruct hwf]
    simp only [h3]
    rw [sum_zipWith_den]
    have := congrArg List.length hx.tags
    have := congrArg List.length hty
    simp at *
    omega

theorem pub_ok [AddCommGroup T] [PubEnc P T] (env : Env) (op : MPCTensor.LinOp) (x : MPCTensor T) (v : P)
    (hx : x.WF env) (a : T) (ha : x.reconstruct = .ok a) :
    ∃ z, MPCTensor.applyPublicLin env op x v = .ok z ∧ z.session = x.session ∧ z.WF env ∧
      z.shares.tail = x.shares.tail ∧ z.reconstruct = .ok (LinOp.den op a (PubEnc.enc x.session.config v)) := by
  obtain ⟨s, shares⟩ := x
  have hne := WF.nonempty hx
  have htags := hx.tags
  cases shares with
  | nil => exact absurd rfl hne
  | cons s0 rest =>
    cases hu : s.rankToUuid with
    | nil => simp [hu] at htags
    | cons u us =>
      simp only [hu, List.map_cons, List.cons.injEq] at htags
      obtain ⟨p, hp, hc, hr⟩ := hx.ready.known u (by simp [hu])
      have hring : ∃ t, getTypeFromRing p.ringSize = .ok t := by rw [hr]; exact hx.ready.ring
      have h1 := shareOp_pub env op s0 v u p htags.1 hp hring
      have hwf : MPCTensor.WF env ⟨s, (⟨LinOp.den op s0.tensor (PubEnc.enc p.config v), some u, p.config, p.ringSize⟩ :: rest : List (ShareTensor T))⟩ :=
        ⟨hx.ready, by simp [hu, htags.2]⟩
      refine ⟨⟨s, ⟨LinOp.den op s0.tensor (PubEnc.enc p.config v), some u, p.config, p.ringSize⟩ :: rest⟩, ?_, rfl, hwf,
        rfl, ?_⟩
      · unfold MPCTensor.applyPublicLin
        simp only
        rw [h1, ok_bind, ofShares_ok _ _ hx.ready.ptrs (by simp)]
      · rw [WF.reconstruct hx] at ha
        cases ha
        rw [WF.reconstruct hwf]
        simp only at hc
        cases op <;> simp [LinOp.den, hc] <;> abel

/-- C11 (additive sharing): `x + y`, `x - y` for well formed tensors of one session reconstruct to sum and
difference, and the result is again well formed. -/
theorem C11_private_linear_additive [AddCommGroup T] [PubEnc P T] (env : Env) (op : MPCTensor.LinOp) (x y : MPCTensor T)
    (hx : x.WF env) (hy : y.WF env) (hs : y.session = x.session) (a b : T)
    (ha : x.reconstruct = .ok a) (hb : y.reconstruct = .ok b) :
    ∃ z, MPCTensor.applyPrivateLin (P := P) env op x y = .ok z ∧ z.WF env ∧
      z.reconstruct = .ok (match op with | .add => a + b | .sub => a - b) := by
  obtain ⟨z, h1, _, h3, h4⟩ := priv_ok (P := P) env op x y hx hy hs a b ha hb
  exact ⟨z, h1, h3, by rw [h4]; cases op <;> rfl⟩

/-- C12: `x + p`, `x - p`: the public value is used once, by the first party. -/
theorem C12_public_linear_additive [AddCommGroup T] [PubEnc P T] (env : Env) (op : MPCTensor.LinOp) (x : MPCTensor T) (v : P)
    (hx : x.WF env) (a : T) (ha : x.reconstruct = .ok a) :
    ∃ z, MPCTensor.applyPublicLin env op x v = .ok z ∧ z.WF env ∧ z.shares.tail = x.shares.tail ∧
      z.reconstruct = .ok (match op with
        | .add => a + PubEnc.enc x.session.config v
        | .sub => a - PubEnc.enc x.session.config v) := by
  obtain ⟨z, h1, _, h3, h4, h5⟩ := pub_ok env op x v hx a ha
  exact ⟨z, h1, h3, h4, by rw [h5]; cases op <;> rfl⟩

/-- C11/C12 for whole programs: any program of sharings, additions and subtractions of secrets and public values runs
without error and reconstructs to its plain meaning over the encoded values, whatever masks are drawn. -/
theorem C11_linear_programs [AddCommGroup T] [PubEnc P T] (env : Env) (s : Session) (hs : s.Ready env) (e : LinExpr P T) :
    ∃ x, e.run env s = .ok x ∧ x.session = s ∧ x.WF env ∧ x.reconstruct = .ok (e.den s.config) := by
  induction e with
  | secret v draws =>
    obtain ⟨x, h1, h2, h3, h4⟩ := ofSecret_ok env s hs v draws
    exact ⟨x, h1, h2, h3, h4⟩
  | priv op a b iha ihb =>
    obtain ⟨x, hx1, hx2, hx3, hx4⟩ := iha
    obtain ⟨y, hy1, hy2, hy3, hy4⟩ := ihb
    obtain ⟨z, hz1, hz2, hz3, hz4⟩ := priv_ok (P := P) env op x y hx3 hy3 (by rw [hx2, hy2]) _ _ hx4 hy4
    refine ⟨z, ?_, by rw [hz2, hx2], hz3, hz4⟩
    simp only [LinExpr.run, hx1, hy1, ok_bind, hz1]
  | pub op a v iha =>
    obtain ⟨x, hx1, hx2, hx3, hx4⟩ := iha
    obtain ⟨z, hz1, hz2, hz3, _, hz4⟩ := pub_ok env op x v hx3 _ hx4
    refine ⟨z, ?_, by rw [hz2, hx2], hz3, by rw [hz4, hx2]; rfl⟩
    simp only [LinExpr.run, hx1, ok_bind, hz1]

example : (match (LinExpr.run exEnv exSession
      (.pub .sub (.priv .add (.secret (FixedPointEncoder.Val.float (3/2)) fun _ => 77) (.secret (.int (-1)) fun _ => 5)) (.int 2)
        : LinExpr FixedPointEncoder.Val I64)) >>= MPCTensor.reconstruct with
    | .ok w => w
    | .error _ => 0) = -98304#64 := by decide +kernel

/-- C11: `x -= y` (in place) leaves in `x` a tensor that reconstructs to the difference. -/
theorem C11_isub_additive [AddCommGroup T] [PubEnc P T] (env : Env) (x : MPCTensor T) (hx : x.WF env) (a : T)
    (ha : x.reconstruct = .ok a) :
    (∀ (y : MPCTensor T) (b : T), y.WF env → y.session = x.session → y.reconstruct = .ok b →
      ∃ z, MPCTensor.isub (P := P) env x (.inr y) = .ok z ∧ z.WF env ∧ z.reconstruct = .ok (a - b)) ∧
    (∀ v : P, ∃ z, MPCTensor.isub env x (.inl v) = .ok z ∧ z.WF env ∧
      z.reconstruct = .ok (a - PubEnc.enc x.session.config v)) := by
  constructor
  · intro y b hy hs hb
    obtain ⟨z, h1, h2, h3, h4⟩ := priv_ok (P := P) env .sub x y hx hy hs a b ha hb
    refine ⟨⟨x.session, z.shares⟩, ?_, ⟨hx.ready, h2 ▸ h3.tags⟩, h4⟩
    simp only [MPCTensor.isub, h1, ok_bind]; rfl
  · intro v
    obtain ⟨z, h1, h2, h3, _, h4⟩ := pub_ok env .sub x v hx a ha
    refine ⟨⟨x.session, z.shares⟩, ?_, ⟨hx.ready, h2 ▸ h3.tags⟩, h4⟩
    simp only [MPCTensor.isub, h1, ok_bind]; rfl

end SyMPC
